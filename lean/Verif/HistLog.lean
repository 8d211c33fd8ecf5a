import Verif.HistSpec
import Verif.Queue
import Verif.Reach
/-!
# The history maps hold exactly what the past says
-/

namespace SC
open Spec Chart
variable {W α : Type} {P : Prog W} {m : Mach W}

/-- Allocation of history entries does not throw. -/
def HistAlloc (P : Prog W) : Prop := ∀ k w, (P.alloc (.shallowNode k) w).2 = none ∧ (P.alloc (.deepNode k) w).2 = none

/-- Allocation at this site can fail. -/
def Prog.short (P : Prog W) (site : Site) : Prop := ∃ w x, (P.alloc site w).2 = some x

/-- Allocation at this site can succeed. -/
def Prog.ample (P : Prog W) (site : Site) : Prop := ∃ w, (P.alloc site w).2 = none

/-- Allocation at this site can succeed (true), fail (false). -/
def Prog.supply (P : Prog W) (site : Site) : Bool → Prop
  | true => P.ample site
  | false => P.short site

theorem inRegion_iff {C : Chart} (hwf : C.WF) {p i s : Nat} (hs : s < C.n) :
    inRegion C p i s = true ↔ ∃ c, C.parent c = some p ∧ Below C c s ∧ C.pos c = i := by
  unfold inRegion
  rw [List.any_eq_true]
  simp only [List.mem_cons, Bool.and_eq_true, beq_iff_eq]
  constructor
  · rintro ⟨c, hc, h1, h2⟩
    refine ⟨c, h1, ?_, h2⟩
    rcases hc with rfl | hc
    · exact .refl
    · obtain ⟨q, h3, h4⟩ := (mem_ancestors hwf hs).1 hc
      exact .step h3 h4
  · rintro ⟨c, h1, h2, h3⟩
    refine ⟨c, ?_, h1, h3⟩
    rcases h2.eq_or_outer with rfl | ho
    · exact .inl rfl
    · exact .inr ((mem_ancestors hwf hs).2 ho)

/-- The maps have nodes for the entries that `l` says. -/
def Held (C : Chart) (l : List HOp) (m : Mach W) : Prop :=
  ∀ p i, m.shKeys (p, i) = entered (shallowSays C p i) l ∧ m.dhKeys (p, i) = entered (deepSays C p i) l

/-- The memory after operations `ops` that began with what `l` says. -/
structure HistStep (C : Chart) (F : Site → Bool → Prop) (b : Bool) (n : Nat) (m m' : Mach W) (obs : List (Option Event × Obs)) (ops : List HOp) : Prop where
  trace : m'.trace = m.trace ++ obs
  hlog : m'.hlog = m.hlog ++ ops
  noClear : b = false → HOp.clear ∉ ops
  exits : ops.filterMap HOp.exit? = (obs.map (·.2)).filterMap Obs.exit?
  mem : Bounded C ops → ∀ l, m.mem = recall C l → m'.mem = recall C (l ++ ops)
  held : Bounded C ops → ∀ l, m.mem = recall C l → Held C l m → Held C (l ++ ops) m'
  cuts : b = false → ops.countP HOp.isCut ≤ n
  lawful : Bounded C ops → ∀ l, m.mem = recall C l → Held C l m → Lawful C F l → Lawful C F (l ++ ops)

/-- `b`: all history may have been cleared. Otherwise at most `n` exits were not recorded completely. -/
def HRel (C : Chart) (F : Site → Bool → Prop) (b : Bool) (n : Nat) (m m' : Mach W) : Prop := ∃ obs ops, HistStep C F b n m m' obs ops

variable {F : Site → Bool → Prop} {b : Bool} {n : Nat}

theorem HRel.refl (C : Chart) (m : Mach W) : HRel C F b n m m := 
  ⟨[], [], by simp, by simp, by simp, by simp, fun _ l h => by simpa using h, fun _ l _ h => by simpa using h, by simp, fun _ l _ _ h => by simpa using h⟩

theorem HRel.trans' {n n1 n2 : Nat} (hn : n = n1 + n2) {bl : Bool} {C : Chart} {a b c : Mach W} (h1 : HRel C F bl n1 a b) (h2 : HRel C F bl n2 b c) : HRel C F bl n a c := by
  obtain ⟨o1, p1, a1, a2, a5, a3, a4, a6, a8, a7⟩ := h1
  obtain ⟨o2, p2, b1, b2, b5, b3, b4, b6, b8, b7⟩ := h2
  refine ⟨o1 ++ o2, p1 ++ p2, by rw [b1, a1]; simp, by rw [b2, a2]; simp, fun hb => by simp [a5 hb, b5 hb], ?_, ?_, ?_,
    fun hb => by rw [List.countP_append, hn]; exact Nat.add_le_add (a8 hb) (b8 hb), ?_⟩
  · rw [List.map_append, List.filterMap_append, List.filterMap_append, a3, b3]
  · intro hn l hl
    rw [← List.append_assoc]
    exact b4 (Bounded.append.1 hn).2 _ (a4 (Bounded.append.1 hn).1 l hl)
  · intro hn l hl hk
    rw [← List.append_assoc]
    exact b6 (Bounded.append.1 hn).2 _ (a4 (Bounded.append.1 hn).1 l hl) (a6 (Bounded.append.1 hn).1 l hl hk)
  · intro hn l hl hk hw
    rw [← List.append_assoc]
    exact b7 (Bounded.append.1 hn).2 _ (a4 (Bounded.append.1 hn).1 l hl) (a6 (Bounded.append.1 hn).1 l hl hk) (a7 (Bounded.append.1 hn).1 l hl hk hw)

theorem HRel.trans {bl : Bool} {C : Chart} {a b c : Mach W} (h1 : HRel C F bl 0 a b) (h2 : HRel C F bl n b c) : HRel C F bl n a c := HRel.trans' (by simp) h1 h2

theorem HRel.mono {bl : Bool} {C : Chart} {a b : Mach W} {k : Nat} (h : HRel C F bl k a b) (hk : bl = false → k ≤ n) : HRel C F bl n a b := by
  obtain ⟨o, p, h1, h2, h3, h4, h5, h6, h7, h8⟩ := h
  exact ⟨o, p, h1, h2, h3, h4, h5, h6, fun hb => Nat.le_trans (h7 hb) (hk hb), h8⟩

def histK (C : Chart) (F : Site → Bool → Prop) (b : Bool) : KRel W where
  R := HRel C F b 0
  E _ := HRel C F b 1
  refl := HRel.refl C
  trans := HRel.trans
  re := HRel.trans
  er := HRel.trans' rfl

theorem hrel_same {C : Chart} {m m' : Mach W} (h1 : m'.trace = m.trace) (h2 : m'.hlog = m.hlog) (h3 : m'.sh = m.sh) (h4 : m'.dh = m.dh)
    (h5 : m'.shKeys = m.shKeys) (h6 : m'.dhKeys = m.dhKeys) : HRel C F b n m m' := by
  refine ⟨[], [], by simp [h1], by simp [h2], by simp, by simp, ?_, fun _ l _ h => ?_, by simp, fun _ l _ _ h => by simpa using h⟩
  rotate_left
  · rw [List.append_nil]; unfold Held; rw [h5, h6]; exact h
  intro _ l hl
  rw [List.append_nil, ← hl]
  unfold Mach.mem
  rw [h2, h3, h4]

theorem mem_ext {a b : Memory} (h0 : a.log = b.log) (h1 : ∀ p i, a.sh p i = b.sh p i) (h2 : ∀ p i, a.dh p i = b.dh p i) : a = b := by
  cases a; cases b
  cases h0
  congr
  · funext p i; exact h1 p i
  · funext p i; exact h2 p i

theorem fedOK_clear {C : Chart} {l : List HOp} {o : HOp} (ho : o.exit? = none) : FedOK C F l o := by
  intro p i s
  constructor <;> intro h <;> cases o <;> first | (cases ho; done) | (simp only [shallowSays, deepSays] at h; first | (cases h; done) | (split at h <;> cases h))

theorem hrel_cmd (C : Chart) (m : Mach W) (c : Cmd) : HRel C F b n m (m.cmd c) := by
  cases c with
  | post e => exact hrel_same rfl rfl rfl rfl rfl rfl
  | clearShallow k =>
    refine ⟨[], [.clearShallow k], by simp [Mach.cmd], rfl, by simp, rfl, ?_, ?_, by simp [HOp.isCut], fun _ l _ _ h => h.snoc (by simp) (fedOK_clear rfl)⟩
    rotate_left
    · intro _ l _ hk p i
      have h1 := hk p i
      rw [entered_snoc _ _ (by simp), entered_snoc _ _ (by simp)]
      unfold Mach.cmd
      simp only [upd, shallowSays, deepSays]
      refine ⟨?_, ?_⟩
      all_goals first
        | exact h1.1
        | exact h1.2
        | (by_cases hk : k = (p, i)
           · subst hk; simp
           · rw [if_neg hk, if_neg (fun h => hk h.symm)]; first | exact h1.1 | exact h1.2)
    intro _ l hl
    refine mem_ext ?_ (fun p i => ?_) (fun p i => ?_)
    · show m.hlog ++ _ = l ++ _
      rw [show m.hlog = l from congrArg Memory.log hl]
    · show _ = lastSaid _ _
      rw [lastSaid_snoc]
      have : m.mem.sh p i = lastSaid (shallowSays C p i) l := by rw [hl]; rfl
      unfold Mach.cmd Mach.mem
      unfold Mach.mem at this
      simp only [upd, shallowSays] at this ⊢
      by_cases hk : k = (p, i)
      · rw [if_pos hk.symm, if_pos hk]
      · rw [if_neg (fun h => hk h.symm), if_neg hk]; exact this
    · show _ = lastSaid _ _
      rw [lastSaid_snoc]
      have : m.mem.dh p i = lastSaid (deepSays C p i) l := by rw [hl]; rfl
      exact this
  | clearDeep k =>
    refine ⟨[], [.clearDeep k], by simp [Mach.cmd], rfl, by simp, rfl, ?_, ?_, by simp [HOp.isCut], fun _ l _ _ h => h.snoc (by simp) (fedOK_clear rfl)⟩
    rotate_left
    · intro _ l _ hk p i
      have h1 := hk p i
      rw [entered_snoc _ _ (by simp), entered_snoc _ _ (by simp)]
      unfold Mach.cmd
      simp only [upd, shallowSays, deepSays]
      refine ⟨?_, ?_⟩
      all_goals first
        | exact h1.1
        | exact h1.2
        | (by_cases hk : k = (p, i)
           · subst hk; simp
           · rw [if_neg hk, if_neg (fun h => hk h.symm)]; first | exact h1.1 | exact h1.2)
    intro _ l hl
    refine mem_ext ?_ (fun p i => ?_) (fun p i => ?_)
    · show m.hlog ++ _ = l ++ _
      rw [show m.hlog = l from congrArg Memory.log hl]
    · show _ = lastSaid _ _
      rw [lastSaid_snoc]
      have : m.mem.sh p i = lastSaid (shallowSays C p i) l := by rw [hl]; rfl
      exact this
    · show _ = lastSaid _ _
      rw [lastSaid_snoc]
      have : m.mem.dh p i = lastSaid (deepSays C p i) l := by rw [hl]; rfl
      unfold Mach.cmd Mach.mem
      unfold Mach.mem at this
      simp only [upd, deepSays] at this ⊢
      by_cases hk : k = (p, i)
      · rw [if_pos hk.symm, if_pos hk]
      · rw [if_neg (fun h => hk h.symm), if_neg hk]; exact this

theorem hrel_cmds (C : Chart) (l : List Cmd) : ∀ m : Mach W, HRel C F b n m (l.foldl Mach.cmd m) := by
  induction l with
  | nil => exact HRel.refl C
  | cons c l ih => exact fun m => (hrel_cmd C m c).trans (ih _)

theorem hrel_user (C : Chart) (w : W) (l : List Cmd) (m : Mach W) : HRel C F b n m (l.foldl Mach.cmd { m with world := w }) :=
  HRel.trans (hrel_same (m' := { m with world := w }) rfl rfl rfl rfl rfl rfl) (hrel_cmds C l _)

theorem hrel_log (C : Chart) (o : Obs) (ho : o.hops = []) (m : Mach W) : HRel C F b n m (m.log o) := by
  refine ⟨[(m.trig, o)], [], rfl, by simp [Mach.log, ho], by simp, (by cases o <;> first | rfl | (cases ho)), ?_, fun _ l _ h => by rw [List.append_nil]; exact h, by simp, fun _ l _ _ h => by simpa using h⟩
  intro _ l hl
  rw [List.append_nil, ← hl]; exact mem_log _ _ ho

theorem keeps_runUser_hist {C : Chart} {f : View → W → UOut W} {o o' : Obs} (ha : o.hops = []) (hb : o'.hops = []) : Keeps (histK C F b) (runUser f [o] [o']) := by
  intro m
  unfold KeepsAt runUser
  cases h : (f m.view m.world).throws with
  | none => simp only [h]; exact (hrel_user C _ _ m).trans (hrel_log C o ha _)
  | some x => simp only [h]; exact ((hrel_user C _ _ m).trans (hrel_log C o' hb _)).trans (hrel_same rfl rfl rfl rfl rfl rfl)

theorem histPrims_core (P : Prog W) : CorePrims (histK P.toChart P.supply b) P where
  core h := hrel_same h.trace h.hlog h.sh h.dh h.shKeys h.dhKeys
  raise _ _ := hrel_same rfl rfl rfl rfl rfl rfl
  ctor s := by
    intro m
    have := keeps_runUser_hist (C := P.toChart) (F := P.supply) (f := P.ctor s) (b := b) (o := .enter s) (o' := .enterFail s) rfl rfl m
    unfold KeepsAt runCtor
    by_cases hc : P.isSimple s = true ∧ (P.ctor s m.view m.world).cmds ≠ []
    · simp [hc]
    · rw [if_neg hc]; exact this
  dtor s := fun m => (hrel_user _ _ _ m).trans (hrel_log _ _ rfl _)
  action a := by
    cases a with
    | none => exact Keeps.pure _
    | some a => exact keeps_runUser_hist rfl rfl
  react s id e := keeps_runUser_hist rfl rfl
  relEv := fun _ m => hrel_same rfl rfl rfl rfl rfl rfl
  hold := fun s m => HRel.trans (b := m.qop (.hold s)) (hrel_same rfl rfl rfl rfl rfl rfl) (hrel_log _ _ rfl _)

/-! ### Failures to record an exit -/

/-- Storing deep history ends with an exception: at a context `q` whose map has no node yet for the region; the contexts inside `q` have been served. -/
theorem storeDeepF_thrown (hwf : P.toChart.WF) : ∀ (f : Nat) (cur leaf : Sid) (m m' : Mach W) (x : Exc), cur < P.n →
    storeDeepF P f cur leaf m = .thrown x m' →
    ∃ q c, P.deepH q = true ∧ P.parent c = some q ∧ Below P.toChart c cur ∧ m.dhKeys (q, P.pos c) = false ∧
      (∃ w, (P.alloc (.deepNode (q, P.pos c)) w).2 = some x) ∧
      m'.trace = m.trace ∧ m'.hlog = m.hlog.dropLast ++ [.cut leaf (some q)] ∧ m'.sh = m.sh ∧
      (∀ p c, P.deepH p = true → P.parent c = some p → Below P.toChart c cur → Outer P.toChart q p → m'.mem.dh p (P.pos c) = some leaf) ∧
      (∀ p i, ¬ (P.deepH p = true ∧ Outer P.toChart q p ∧ ∃ c, P.parent c = some p ∧ Below P.toChart c cur ∧ P.pos c = i) →
        m'.mem.dh p i = m.mem.dh p i) := by
  intro f
  induction f with
  | zero => intro cur leaf m m' x _ h; cases h
  | succ f ih =>
    intro cur leaf m m' x hcur h
    rw [storeDeepF] at h
    cases hp : P.parent cur with
    | none => rw [hp] at h; cases h
    | some p0 =>
      rw [hp] at h
      have hp0 := parent_bound hwf hcur hp
      have hlt := hwf.parent_lt hcur hp
      simp only at h
      by_cases hd : P.inhDeep p0 = true
      · rw [if_pos hd] at h
        change M.bnd (getObj p0) _ m = _ at h
        unfold M.bnd getObj at h
        cases hg : m.heap p0 with
        | none => rw [hg] at h; cases h
        | some o =>
          rw [hg] at h
          simp only at h
          by_cases hdp : P.deepH p0 = true
          · rw [if_pos hdp] at h
            change M.bnd (M.bnd (histNode P _ _ _ _) _) _ m = _ at h
            unfold M.bnd at h
            rcases histNode_cases P (fun m => m.dhKeys (p0, P.pos cur)) (.deepNode (p0, P.pos cur)) leaf (some p0) m with ⟨w, ha⟩ | ⟨y, hk, hy, ha⟩
            · rw [ha] at h
              simp only [M.modify] at h
              obtain ⟨q, c, h1, h2, h3, h4, h5, h6, h7, h8, h9, h10⟩ := ih p0 leaf _ m' x hp0 h
              have hcle := h3.le hwf hp0
              have hqc := hwf.parent_lt (h3.bound hwf hp0) h2
              have hq : Outer P.toChart q p0 := by
                rcases (Below.trans (.step h2 .refl) h3).eq_or_outer with he | ho
                · omega
                · exact ho
              refine ⟨q, c, h1, h2, .step hp h3, ?_, h5, h6, h7, h8, ?_, ?_⟩
              · have : (q, P.pos c) ≠ (p0, P.pos cur) := by
                  intro he
                  have := (Prod.mk.inj he).1
                  omega
                simp only [upd, if_neg this] at h4
                exact h4
              · intro p c' g1 g2 g3 g4
                cases g3 with
                | refl =>
                  rw [hp] at g2; cases g2
                  rw [h10]
                  · simp [Mach.mem, upd]
                  · rintro ⟨_, _, c'', k1, k2, _⟩
                    have h5 := k2.le hwf hp0
                    have h6 := hwf.parent_lt (k2.bound hwf hp0) k1
                    omega
                | step k1 k2 =>
                  rw [hp] at k1; cases k1
                  exact h9 p c' g1 g2 k2 g4
              · intro p i hn
                rw [h10]
                · have : (p, i) ≠ (p0, P.pos cur) := by
                    intro he; cases he
                    exact hn ⟨hdp, hq, cur, hp, .refl, rfl⟩
                  simp only [Mach.mem, upd, if_neg this]
                · rintro ⟨g1, g0, c', g2, g3, g4⟩
                  exact hn ⟨g1, g0, c', g2, .step hp g3, g4⟩
            · rw [ha] at h
              cases h
              refine ⟨p0, cur, hdp, hp, .refl, hk, ⟨_, hy⟩, rfl, rfl, rfl, ?_, fun _ _ _ => rfl⟩
              intro p c' g1 g2 g3 g4
              exfalso
              have hle : p ≤ p0 := by
                cases g3 with
                | refl => rw [hp] at g2; cases g2; exact Nat.le_refl _
                | step k3 k4 =>
                  rw [hp] at k3; cases k3
                  have h1 := k4.le hwf hp0
                  have h2 := hwf.parent_lt (k4.bound hwf hp0) g2
                  omega
              have := g4.lt hwf (Nat.lt_of_le_of_lt hle hp0)
              omega
          · rw [if_neg hdp] at h
            change M.bnd (pure ()) _ m = _ at h
            unfold M.bnd at h
            change storeDeepF P f p0 leaf m = _ at h
            obtain ⟨q, c, h1, h2, h3, h4, h5, h6, h7, h8, h9, h10⟩ := ih p0 leaf _ m' x hp0 h
            refine ⟨q, c, h1, h2, .step hp h3, h4, h5, h6, h7, h8, ?_, ?_⟩
            · intro p c' g1 g2 g3 g4
              cases g3 with
              | refl => rw [hp] at g2; cases g2; exact absurd g1 hdp
              | step k1 k2 =>
                rw [hp] at k1; cases k1
                exact h9 p c' g1 g2 k2 g4
            · intro p i hn
              rw [h10]
              rintro ⟨g1, g0, c', g2, g3, g4⟩
              exact hn ⟨g1, g0, c', g2, .step hp g3, g4⟩
      · rw [if_neg hd] at h
        cases h

theorem storeDeepF_cut : ∀ (f : Nat) (cur leaf : Sid) (m m' : Mach W) (x : Exc),
    storeDeepF P f cur leaf m = .thrown x m' → ∃ k, m'.trace = m.trace ∧ m'.hlog = m.hlog.dropLast ++ [.cut leaf k] := by
  intro f
  induction f with
  | zero => intro cur leaf m m' x h; cases h
  | succ f ih =>
    intro cur leaf m m' x h
    rw [storeDeepF] at h
    cases hp : P.parent cur with
    | none => rw [hp] at h; cases h
    | some p0 =>
      rw [hp] at h
      simp only at h
      by_cases hd : P.inhDeep p0 = true
      · rw [if_pos hd] at h
        change M.bnd (getObj p0) _ m = _ at h
        unfold M.bnd getObj at h
        cases hg : m.heap p0 with
        | none => rw [hg] at h; cases h
        | some o =>
          rw [hg] at h
          simp only at h
          by_cases hdp : P.deepH p0 = true
          · rw [if_pos hdp] at h
            change M.bnd (M.bnd (histNode P _ _ _ _) _) _ m = _ at h
            unfold M.bnd at h
            rcases histNode_cases P (fun m => m.dhKeys (p0, P.pos cur)) (.deepNode (p0, P.pos cur)) leaf (some p0) m with ⟨w, ha⟩ | ⟨y, _, _, ha⟩
            · rw [ha] at h
              simp only [M.modify] at h
              obtain ⟨k, h1, h2⟩ := ih p0 leaf _ m' x h
              exact ⟨k, h1, h2⟩
            · rw [ha] at h
              cases h
              exact ⟨_, rfl, rfl⟩
          · rw [if_neg hdp] at h
            exact ih p0 leaf m m' x h
      · rw [if_neg hd] at h
        cases h

theorem storeShallow_dhKeys {s : Sid} {m m' : Mach W} (h : storeShallow P s m = .ok () m') : m'.dhKeys = m.dhKeys := by
  unfold storeShallow at h
  split at h
  · cases hp : P.parent s with
    | none => rw [hp] at h; cases h; rfl
    | some p0 =>
      rw [hp] at h
      simp only at h
      change M.bnd (histNode P _ _ _ _) _ m = _ at h
      unfold M.bnd at h
      rcases histNode_cases P (fun m => m.shKeys (p0, P.pos s)) (.shallowNode (p0, P.pos s)) s none m with ⟨w, ha⟩ | ⟨y, hk, hy, ha⟩
      · rw [ha] at h; cases h; rfl
      · rw [ha] at h; cases h
  · cases h; rfl

theorem storeShallow_thrown {s : Sid} {m m' : Mach W} {x : Exc} (h : storeShallow P s m = .thrown x m') :
    ∃ p, P.parent s = some p ∧ P.shallowH p = true ∧ m.shKeys (p, P.pos s) = false ∧ (∃ w, (P.alloc (.shallowNode (p, P.pos s)) w).2 = some x) ∧
      m'.trace = m.trace ∧ m'.hlog = m.hlog.dropLast ++ [.cut s none] ∧ m'.sh = m.sh ∧ m'.dh = m.dh := by
  unfold storeShallow at h
  unfold Chart.storesShallow at h
  cases hp : P.parent s with
  | none => rw [hp] at h; cases h
  | some p0 =>
    rw [hp] at h
    simp only at h
    by_cases h0 : P.shallowH p0 = true
    · rw [if_pos h0] at h
      change M.bnd (histNode P _ _ _ _) _ m = _ at h
      unfold M.bnd at h
      rcases histNode_cases P (fun m => m.shKeys (p0, P.pos s)) (.shallowNode (p0, P.pos s)) s none m with ⟨w, ha⟩ | ⟨y, hk, hy, ha⟩
      · rw [ha] at h; cases h
      · rw [ha] at h; cases h
        exact ⟨p0, rfl, h0, hk, ⟨_, hy⟩, rfl, rfl, rfl, rfl⟩
    · rw [if_neg h0] at h; cases h

/-- Where the recording of an exit ended, and why. -/
def CutAt (P : Prog W) (m : Mach W) (s : Sid) (x : Exc) : Option Sid → Prop
  | none => ∃ p, P.parent s = some p ∧ P.shallowH p = true ∧ m.shKeys (p, P.pos s) = false ∧ ∃ w, (P.alloc (.shallowNode (p, P.pos s)) w).2 = some x
  | some q => P.isLeaf s = true ∧ P.deepH q = true ∧ ∃ c, P.parent c = some q ∧ Below P.toChart c s ∧ m.dhKeys (q, P.pos c) = false ∧
      ∃ w, (P.alloc (.deepNode (q, P.pos c)) w).2 = some x

/-- A full exit ends with an exception if `exit()` throws or the exit cannot be recorded completely. -/
theorem fullExit_thrown (hwf : P.toChart.WF) {s : Sid} {m m' : Mach W} {x : Exc} (hx : fullExitPart P s m = .thrown x m') :
    m' = ((m.exiting P s).log (.exitFail s)).raise x ∨
    ∃ k, m'.trace = (m.exited P s).trace ∧ m'.hlog = (m.exiting P s).hlog ++ [.cut s k] ∧ (s < P.n → CutAt P (m.exiting P s) s x k ∧
      (∀ p i, m'.mem.sh p i = (shallowSays P.toChart p i (.cut s k)).getD ((m.exiting P s).mem.sh p i)) ∧
      (∀ p i, m'.mem.dh p i = (deepSays P.toChart p i (.cut s k)).getD ((m.exiting P s).mem.dh p i))) := by
  unfold fullExitPart at hx
  change M.bnd (runUser _ _ _) _ m = _ at hx
  unfold M.bnd runUser at hx
  cases ht : (P.exit s m.view m.world).throws with
  | some x => simp only [ht] at hx; cases hx; exact .inl rfl
  | none =>
    right
    simp only [ht] at hx
    generalize hm1 : m.exited P s = m1
    have : List.foldl Mach.log (List.foldl Mach.cmd { m with world := (P.exit s m.view m.world).world }
        (P.exit s m.view m.world).cmds) [Obs.exit s] = m1 := hm1
    rw [this] at hx
    have hlog : m1.hlog.dropLast = (m.exiting P s).hlog := by
      rw [← hm1]
      show ((m.exiting P s).hlog ++ [HOp.exit s]).dropLast = _
      simp
    have hk1 : m1.shKeys = (m.exiting P s).shKeys := by rw [← hm1]; rfl
    have hk2 : m1.dhKeys = (m.exiting P s).dhKeys := by rw [← hm1]; rfl
    have hm2 : m1.mem.sh = (m.exiting P s).mem.sh := by rw [← hm1]; rfl
    have hm3 : m1.mem.dh = (m.exiting P s).mem.dh := by rw [← hm1]; rfl
    change M.bnd (storeShallow P s) _ m1 = _ at hx
    unfold M.bnd at hx
    cases hs : storeShallow P s m1 with
    | fault g => rw [hs] at hx; cases hx
    | thrown e m2 =>
      rw [hs] at hx
      cases hx
      obtain ⟨p, h1, h2, h3, h4, h5, h6, h7, h8⟩ := storeShallow_thrown hs
      refine ⟨none, h5, by rw [h6, hlog], fun _ => ⟨⟨p, h1, h2, by rw [← hk1]; exact h3, h4⟩, ?_, ?_⟩⟩
      · intro p i
        rw [← hm2, show shallowSays P.toChart p i (.cut s none) = none by simp [shallowSays]]
        unfold Mach.mem; rw [h7]; rfl
      · intro p i
        rw [← hm3, show deepSays P.toChart p i (.cut s none) = none by simp [deepSays]]
        unfold Mach.mem; rw [h8]; rfl
    | ok u m2 =>
      rw [hs] at hx
      simp only at hx
      obtain ⟨hst, hsl, hsd, hsm⟩ := storeShallow_ok hs
      have hdm : m2.mem.dh = m1.mem.dh := by unfold Mach.mem; simp only [hsd]
      have hkm : m2.dhKeys = m1.dhKeys := storeShallow_dhKeys hs
      unfold storeDeep at hx
      by_cases hd : P.storesDeep s = true
      · rw [if_pos hd] at hx
        have hl : P.isLeaf s = true := by
          unfold Chart.storesDeep at hd; simp at hd; exact hd.2
        by_cases hsn : s < P.n
        · obtain ⟨q, c, h1, h2, h3, h4, h5, h6, h7, h8, h9, h10⟩ := storeDeepF_thrown hwf _ _ _ _ _ _ hsn hx
          refine ⟨some q, by rw [h6, hst], by rw [h7, hsl, hlog], fun _ => ⟨⟨hl, h1, c, h2, h3, by rw [← hk2, ← hkm]; exact h4, h5⟩, ?_, ?_⟩⟩
          · intro p i
            have : m'.mem.sh = m2.mem.sh := by unfold Mach.mem; simp only [h8]
            rw [this, hsm, ← hm2]
            simp only [shallowSays]
            by_cases hc : P.parent s = some p ∧ P.shallowH p = true ∧ P.pos s = i
            · rw [if_pos hc, if_pos ⟨by simp, hc⟩]; rfl
            · rw [if_neg hc, if_neg (fun h => hc h.2)]; rfl
          · intro p i
            rw [← hm3, ← hdm]
            simp only [deepSays]
            split
            · next hc =>
              obtain ⟨⟨q', e1, e2⟩, g1, g2, g3⟩ := hc
              cases e1
              obtain ⟨c', k1, k2, k3⟩ := (inRegion_iff hwf hsn).1 g3
              have hpn : p < P.n := parent_bound hwf (k2.bound hwf hsn) k1
              rw [← k3, h9 p c' g2 k1 k2 ((mem_ancestors hwf hpn).1 e2)]; rfl
            · next hc =>
              rw [h10]; rfl
              rintro ⟨g1, g2, c', k1, k2, k3⟩
              have hpn : p < P.n := parent_bound hwf (k2.bound hwf hsn) k1
              exact hc ⟨⟨q, rfl, (mem_ancestors hwf hpn).2 g2⟩, hl, g1, (inRegion_iff hwf hsn).2 ⟨c', k1, k2, k3⟩⟩
        · obtain ⟨k, h6, h7⟩ := storeDeepF_cut _ _ _ _ _ _ hx
          exact ⟨k, by rw [h6, hst], by rw [h7, hsl, hlog], fun h => absurd h hsn⟩
      · rw [if_neg hd] at hx; cases hx

/-- What storing history does to a node: nothing, or it is there afterwards, and was there before or memory for it was available. -/
structure NodeStep (P : Prog W) (m m' : Mach W) : Prop where
  sh : ∀ k, (m'.shKeys k = m.shKeys k ∧ m'.sh k = m.sh k) ∨ (m'.shKeys k = true ∧ (∃ c, m'.sh k = some (.deep c)) ∧ (m.shKeys k = true ∨ P.ample (.shallowNode k)))
  dh : ∀ k, (m'.dhKeys k = m.dhKeys k ∧ m'.dh k = m.dh k) ∨ (m'.dhKeys k = true ∧ (∃ c l, m'.dh k = some (.chain c l)) ∧ (m.dhKeys k = true ∨ P.ample (.deepNode k)))

theorem NodeStep.refl (m : Mach W) : NodeStep P m m := ⟨fun _ => .inl ⟨rfl, rfl⟩, fun _ => .inl ⟨rfl, rfl⟩⟩

theorem NodeStep.trans {a b c : Mach W} (h1 : NodeStep P a b) (h2 : NodeStep P b c) : NodeStep P a c := by
  refine ⟨fun k => ?_, fun k => ?_⟩
  · rcases h2.sh k with ⟨g1, g2⟩ | ⟨g1, g2, g3⟩
    · rw [g1, g2]; exact h1.sh k
    · refine .inr ⟨g1, g2, ?_⟩
      rcases h1.sh k with ⟨k1, _⟩ | ⟨_, _, k3⟩
      · rw [← k1]; exact g3
      · exact k3
  · rcases h2.dh k with ⟨g1, g2⟩ | ⟨g1, g2, g3⟩
    · rw [g1, g2]; exact h1.dh k
    · refine .inr ⟨g1, g2, ?_⟩
      rcases h1.dh k with ⟨k1, _⟩ | ⟨_, _, k3⟩
      · rw [← k1]; exact g3
      · exact k3

def nodeK (P : Prog W) : KRel W where
  R := NodeStep P
  E _ := NodeStep P
  refl := NodeStep.refl
  trans := NodeStep.trans
  re := NodeStep.trans
  er := NodeStep.trans

theorem allocNode_ok {has : Mach W → Bool} {site : Site} {m m' : Mach W} (h : allocNode P has site m = .ok () m') :
    (has m = true ∨ P.ample site) ∧ ∃ w, m' = { m with world := w } := by
  unfold allocNode allocate at h
  cases hm : has m with
  | true => rw [hm] at h; cases h; exact ⟨.inl rfl, _, rfl⟩
  | false =>
    rw [hm] at h
    cases ha : P.alloc site m.world with
    | mk w x =>
      cases x with
      | none => rw [ha] at h; cases h; exact ⟨.inr ⟨m.world, by rw [ha]⟩, _, rfl⟩
      | some x => rw [ha] at h; cases h

theorem histNode_ok {has : Mach W → Bool} {site : Site} {s : Sid} {k : Option Sid} {m m' : Mach W} (h : histNode P has site s k m = .ok () m') :
    (has m = true ∨ P.ample site) ∧ ∃ w, m' = { m with world := w } := by
  unfold histNode M.onThrow allocNode allocate at h
  cases hm : has m with
  | true => rw [hm] at h; cases h; exact ⟨.inl rfl, _, rfl⟩
  | false =>
    rw [hm] at h
    cases ha : P.alloc site m.world with
    | mk w x =>
      cases x with
      | none => rw [ha] at h; cases h; exact ⟨.inr ⟨m.world, by rw [ha]⟩, _, rfl⟩
      | some x => rw [ha] at h; cases h

theorem nodeStep_node {has : Mach W → Bool} {site : Site} {s : Sid} {k : Option Sid} {g : Mach W → Mach W}
    (hg : ∀ m : Mach W, (has m = true ∨ P.ample site) → ∀ w, NodeStep P m (g { m with world := w })) :
    Keeps (nodeK P) (do histNode P has site s k; M.modify g) := by
  intro m
  rcases histNode_cases P has site s k m with ⟨w, h⟩ | ⟨x, _, _, h⟩
  · have : (do histNode P has site s k; M.modify g : M W Unit) m = .ok () (g { m with world := w }) := by
      change M.bnd _ _ m = _
      unfold M.bnd
      rw [h]; rfl
    unfold KeepsAt
    rw [this]
    exact hg m (histNode_ok h).1 w
  · have : (do histNode P has site s k; M.modify g : M W Unit) m = .thrown x ((({ m with world := (P.alloc site m.world).1 } : Mach W).raise x).cutExit s k) := by
      change M.bnd _ _ m = _
      unfold M.bnd
      rw [h]
    unfold KeepsAt
    rw [this]
    exact ⟨fun _ => .inl ⟨rfl, rfl⟩, fun _ => .inl ⟨rfl, rfl⟩⟩

theorem keeps_storeDeepF_node (f : Nat) : ∀ cur leaf : Sid, Keeps (nodeK P) (storeDeepF P f cur leaf) := by
  induction f with
  | zero => intro cur leaf; exact Keeps.fault _
  | succ f ih =>
    intro cur leaf
    rw [storeDeepF]
    split
    · exact Keeps.pure _
    · next p _ =>
      refine Keeps.ite (fun _ => ?_) fun _ => Keeps.pure _
      refine Keeps.bind (keeps_getObj _) fun _ => Keeps.bind (Keeps.ite (fun _ => ?_) fun _ => Keeps.pure _) fun _ => ih _ _
      refine nodeStep_node fun m hm w => ⟨fun _ => .inl ⟨rfl, rfl⟩, fun k => ?_⟩
      by_cases hk : k = (p, P.pos cur)
      · subst hk; exact .inr ⟨by simp [upd], ⟨_, _, by simp [upd]; exact ⟨rfl, rfl⟩⟩, hm⟩
      · exact .inl ⟨by simp [upd, hk], by simp [upd, hk]⟩

theorem fullExit_node (s : Sid) {m m' : Mach W} (hr : (∃ u, fullExitPart P s m = .ok u m') ∨ ∃ x, fullExitPart P s m = .thrown x m') :
    NodeStep P (m.exiting P s) m' := by
  have hst : Keeps (nodeK P) (do storeShallow P s; storeDeep P s) := by
    unfold storeShallow storeDeep
    refine Keeps.bind (Keeps.ite (fun _ => ?_) fun _ => Keeps.pure _) fun _ => Keeps.ite (fun _ => keeps_storeDeepF_node _ _ _) fun _ => Keeps.pure _
    split
    · exact Keeps.pure _
    · next p _ =>
      refine nodeStep_node fun m hm w => ⟨fun k => ?_, fun _ => .inl ⟨rfl, rfl⟩⟩
      by_cases hk : k = (p, P.pos s)
      · subst hk; exact .inr ⟨by simp [upd], ⟨s, by simp [upd]⟩, hm⟩
      · exact .inl ⟨by simp [upd, hk], by simp [upd, hk]⟩
  unfold fullExitPart at hr
  change (∃ u, M.bnd (runUser _ _ _) _ m = _) ∨ ∃ x, M.bnd (runUser _ _ _) _ m = _ at hr
  unfold M.bnd runUser at hr
  cases ht : (P.exit s m.view m.world).throws with
  | some x =>
    simp only [ht] at hr
    rcases hr with ⟨_, hr⟩ | ⟨_, hr⟩ <;> cases hr
    exact ⟨fun _ => .inl ⟨rfl, rfl⟩, fun _ => .inl ⟨rfl, rfl⟩⟩
  | none =>
    simp only [ht] at hr
    rcases hr with ⟨_, hr⟩ | ⟨_, hr⟩
    · exact NodeStep.trans (b := m.exited P s) ⟨fun _ => .inl ⟨rfl, rfl⟩, fun _ => .inl ⟨rfl, rfl⟩⟩ (hst.ok hr)
    · exact NodeStep.trans (b := m.exited P s) ⟨fun _ => .inl ⟨rfl, rfl⟩, fun _ => .inl ⟨rfl, rfl⟩⟩ (hst.thrown hr)

/-- Nodes after recording an exit. -/
theorem NodeStep.held {C : Chart} {m m' : Mach W} (h : NodeStep P m m') {l : List HOp} {o : HOp} {s : Sid} (ho : o.exit? = some s) (hm : m.mem = Spec.recall C l)
    (hm' : m'.mem = Spec.recall C (l ++ [o])) (hl : Held C l m) : Held C (l ++ [o]) m' ∧ FedOK C P.supply l o := by
  have hoc : o ≠ .clear := by rintro rfl; cases ho
  have hs1 : ∀ p i, m.mem.sh p i = lastSaid (shallowSays C p i) l := fun p i => by rw [hm]; rfl
  have hd1 : ∀ p i, m.mem.dh p i = lastSaid (deepSays C p i) l := fun p i => by rw [hm]; rfl
  have hs2 : ∀ p i, m'.mem.sh p i = _ := fun p i => (by rw [hm']; rfl : m'.mem.sh p i = lastSaid (shallowSays C p i) (l ++ [o])).trans (lastSaid_snoc _ _ _)
  have hd2 : ∀ p i, m'.mem.dh p i = _ := fun p i => (by rw [hm']; rfl : m'.mem.dh p i = lastSaid (deepSays C p i) (l ++ [o])).trans (lastSaid_snoc _ _ _)
  have hv : ∀ p i v, (shallowSays C p i o = some v → ∃ s, v = some s) ∧ (deepSays C p i o = some v → ∃ s, v = some s) := by
    intro p i v
    constructor <;> intro h <;> cases o <;> first
      | (cases ho; done)
      | (simp only [shallowSays, deepSays] at h; split at h <;> cases h; exact ⟨_, rfl⟩)
  refine ⟨fun p i => ⟨?_, ?_⟩, fun p i s' => ⟨?_, ?_⟩⟩
  · rw [entered_snoc _ _ hoc]
    rcases h.sh (p, i) with ⟨g1, g2⟩ | ⟨g1, ⟨c, g2⟩, _⟩
    · have he : m'.mem.sh p i = m.mem.sh p i := by unfold Mach.mem; simp only [g2]
      rw [g1, (hl p i).1]
      cases hsy : shallowSays C p i o with
      | none => rfl
      | some v =>
        obtain ⟨x, rfl⟩ := (hv p i v).1 hsy
        rw [hs2, hsy, hs1] at he
        rw [entered_of_said rfl he.symm]; rfl
    · rw [g1]
      have he : m'.mem.sh p i = some c := by unfold Mach.mem; simp only [g2]
      cases hsy : shallowSays C p i o with
      | some v => rfl
      | none =>
        rw [hs2, hsy] at he
        rw [entered_of_said rfl he]; rfl
  · rw [entered_snoc _ _ hoc]
    rcases h.dh (p, i) with ⟨g1, g2⟩ | ⟨g1, ⟨c, c', g2⟩, _⟩
    · have he : m'.mem.dh p i = m.mem.dh p i := by unfold Mach.mem; simp only [g2]
      rw [g1, (hl p i).2]
      cases hsy : deepSays C p i o with
      | none => rfl
      | some v =>
        obtain ⟨x, rfl⟩ := (hv p i v).2 hsy
        rw [hd2, hsy, hd1] at he
        rw [entered_of_said rfl he.symm]; rfl
    · rw [g1]
      have he : m'.mem.dh p i = some c' := by unfold Mach.mem; simp only [g2]
      cases hsy : deepSays C p i o with
      | some v => rfl
      | none =>
        rw [hd2, hsy] at he
        rw [entered_of_said rfl he]; rfl
  · intro hsy
    rcases h.sh (p, i) with ⟨g1, g2⟩ | ⟨_, _, g3⟩
    · have he : m'.mem.sh p i = m.mem.sh p i := by unfold Mach.mem; simp only [g2]
      rw [hs2, hsy, hs1] at he
      exact .inl (entered_of_said rfl he.symm)
    · rw [← (hl p i).1]; exact g3
  · intro hsy
    rcases h.dh (p, i) with ⟨g1, g2⟩ | ⟨_, _, g3⟩
    · have he : m'.mem.dh p i = m.mem.dh p i := by unfold Mach.mem; simp only [g2]
      rw [hd2, hsy, hd1] at he
      exact .inl (entered_of_said rfl he.symm)
    · rw [← (hl p i).2]; exact g3

theorem Spec.Stored.recall {C : Chart} (hwf : C.WF) {s : Sid} (hs : s < C.n) {h h' : Memory} {l : List HOp} (hl : h = Spec.recall C l)
    (h4 : Stored C s h h') : h' = Spec.recall C (l ++ [.exit s]) := by
  subst hl
  refine mem_ext ?_ (fun p i => ?_) (fun p i => ?_)
  · rw [h4.log]; rfl
  · rw [h4.sh]
    show _ = lastSaid _ _
    rw [lastSaid_snoc]
    by_cases hc : C.parent s = some p ∧ C.shallowH p = true ∧ C.pos s = i
    · have : shallowSays C p i (.exit s) = some (some s) := if_pos hc
      rw [if_pos hc, this]
    · have : shallowSays C p i (.exit s) = none := if_neg hc
      rw [if_neg hc, this]; rfl
  · show _ = lastSaid _ _
    rw [lastSaid_snoc]
    by_cases hc : C.isLeaf s = true ∧ C.deepH p = true ∧ inRegion C p i s = true
    · have : deepSays C p i (.exit s) = some (some s) := if_pos hc
      rw [this]
      obtain ⟨g1, g2, g3⟩ := hc
      obtain ⟨c, k1, k2, k3⟩ := (inRegion_iff hwf hs).1 g3
      rw [← k3]; exact h4.deep p c g1 g2 k1 k2
    · have : deepSays C p i (.exit s) = none := if_neg hc
      rw [this, h4.other]
      · rfl
      · rintro ⟨g1, g2, g3⟩
        exact hc ⟨g1, g2, (inRegion_iff hwf hs).2 g3⟩

theorem CutAt.ok (hwf : P.toChart.WF) {m : Mach W} {s : Sid} (hs : s < P.n) {x : Exc} {k : Option Sid} (h : CutAt P m s x k) {l : List HOp}
    (hk : Held P.toChart l m) : CutOK P.toChart P.supply l s k := by
  cases k with
  | none =>
    obtain ⟨p, h1, h2, h3, w, hw⟩ := h
    refine ⟨p, h1, h2, ?_, w, _, hw⟩
    rw [← (hk _ _).1]; exact h3
  | some q =>
    obtain ⟨h1, h2, c, h3, h4, h5, w, hw⟩ := h
    refine ⟨h1, h2, P.pos c, (inRegion_iff hwf hs).2 ⟨c, h3, h4, rfl⟩, ?_, w, _, hw⟩
    rw [← (hk _ _).2]; exact h5

theorem keeps_fullExit_hist (hwf : P.toChart.WF) (s : Sid) : Keeps (histK P.toChart P.supply b) (fullExitPart P s) := by
  intro m
  unfold KeepsAt
  cases hx : fullExitPart P s m with
  | fault g => trivial
  | thrown e m' =>
    simp only
    have hnode := fullExit_node (P := P) s (.inr ⟨_, hx⟩)
    rcases fullExit_thrown hwf hx with rfl | ⟨k, h1, h2, h3⟩
    · exact ((hrel_user _ _ _ m).trans (hrel_log _ _ rfl _)).trans (hrel_same rfl rfl rfl rfl rfl rfl)
    · refine HRel.trans (hrel_user P.toChart (P.exit s m.view m.world).world (P.exit s m.view m.world).cmds m) ?_
      have hmem : Bounded P.toChart [HOp.cut s k] → ∀ l, (m.exiting P s).mem = Spec.recall P.toChart l → m'.mem = Spec.recall P.toChart (l ++ [HOp.cut s k]) := by
        intro hn l hl
        have hs : s < P.n := hn _ (List.mem_singleton.2 rfl) s rfl
        obtain ⟨_, h4, h5⟩ := h3 hs
        refine mem_ext ?_ (fun p i => ?_) (fun p i => ?_)
        · show m'.hlog = _
          rw [h2, show (m.exiting P s).hlog = l from congrArg Memory.log hl]; rfl
        · rw [h4]
          show _ = lastSaid _ _
          rw [lastSaid_snoc, show (m.exiting P s).mem.sh p i = lastSaid (shallowSays P.toChart p i) l by rw [show (m.exiting P s).mem = _ from hl]; rfl]
          cases shallowSays P.toChart p i (.cut s k) <;> rfl
        · rw [h5]
          show _ = lastSaid _ _
          rw [lastSaid_snoc, show (m.exiting P s).mem.dh p i = lastSaid (deepSays P.toChart p i) l by rw [show (m.exiting P s).mem = _ from hl]; rfl]
          cases deepSays P.toChart p i (.cut s k) <;> rfl
      refine ⟨_, [.cut s k], h1, h2, by simp, rfl, hmem, fun hn l hl hk => (hnode.held rfl hl (hmem hn l hl) hk).1, by simp [HOp.isCut], ?_⟩
      intro hn l hl hk hw
      have hs : s < P.n := hn _ (List.mem_singleton.2 rfl) s rfl
      refine hw.snoc (fun s' k' he => ?_) (hnode.held rfl hl (hmem hn l hl) hk).2
      cases he
      exact (h3 hs).1.ok hwf hs hk
  | ok u m' =>
    obtain ⟨_, h1, h2, h3⟩ := fullExit_ok hwf hx
    have hnode := fullExit_node (P := P) s (.inl ⟨_, hx⟩)
    simp only
    refine HRel.trans (hrel_user P.toChart (P.exit s m.view m.world).world (P.exit s m.view m.world).cmds m) ?_
    have hmem : Bounded P.toChart [HOp.exit s] → ∀ l, (m.exiting P s).mem = Spec.recall P.toChart l → m'.mem = Spec.recall P.toChart (l ++ [HOp.exit s]) := by
      intro hn l hl
      have hs : s < P.n := hn _ (List.mem_singleton.2 rfl) s rfl
      exact (h3 hs).recall hwf hs hl
    exact ⟨_, [.exit s], h1, h2, by simp, rfl, hmem, fun hn l hl hk => (hnode.held rfl hl (hmem hn l hl) hk).1, by simp [HOp.isCut],
      fun hn l hl hk hw => hw.snoc (by simp) (hnode.held rfl hl (hmem hn l hl) hk).2⟩

theorem keeps_reactImpl_hist (hwf : P.toChart.WF) (s : Sid) (e : Event) : Keeps (histK P.toChart P.supply false) (reactImpl P s e) := fun _ =>
  (histPrims_core P).rprims.reactFAt (fun _ _ _ => keeps_fullExit_hist hwf) e _ s (fun _ => keeps_fullExit_hist hwf)

theorem keeps_initBody_hist (P : Prog W) : Keeps (histK P.toChart P.supply false) (initBody P) :=
  Keeps.bind ((histPrims_core P).rprims.toPrims.build _ _) fun _ => Keeps.pure _

theorem histPrims (hwf : P.toChart.WF) : AllPrims (histK P.toChart P.supply true) P where
  toRPrims := (histPrims_core P).rprims
  er h := h.mono (by simp)
  re' h := h.mono (by simp)
  loose h := hrel_same h.trace h.hlog h.sh h.dh h.shKeys h.dhKeys
  fullExit := keeps_fullExit_hist hwf
  unconsumed e := keeps_runUser_hist rfl rfl
  clear := by
    intro m
    refine ⟨[], [.clear], by simp, rfl, by simp, rfl, ?_, fun _ l _ _ p i => ⟨?_, ?_⟩, by simp [HOp.isCut],
      fun _ l _ _ h => h.snoc (by simp) (fedOK_clear rfl)⟩
    rotate_left
    · rw [entered_clear rfl]
    · rw [entered_clear rfl]
    intro _ l hl
    refine mem_ext ?_ (fun p i => ?_) (fun p i => ?_)
    · show m.hlog ++ _ = l ++ _
      rw [show m.hlog = l from congrArg Memory.log hl]
    · show _ = lastSaid _ _
      rw [lastSaid_snoc]; rfl
    · show _ = lastSaid _ _
      rw [lastSaid_snoc]; rfl

/-! ## API calls -/

/-- Operations that begin or end a dispatch. -/
def QOp.isTurn : QOp → Bool
  | .post _ | .hold _ | .release _ | .clear => false
  | _ => true

section
variable {K : KRel W} (hK : AllPrims K P) (hq : ∀ (m : Mach W) q d o, o.isTurn = true → K.R m { m with evq := q, dq := d, qlog := m.qlog ++ [o] })
  (hh : ∀ (m : Mach W) c, K.R m (m.cmd c))
include hK hq

theorem AllPrims.dispatch (e : Event) : Keeps K (dispatch P e) := by
  have hop : ∀ o, o.isTurn = true → Keeps K (qop o : M W Unit) := fun o ho => Keeps.modify fun m => hq m m.evq m.dq _ ho
  unfold SC.dispatch
  refine Keeps.bind (Keeps.onThrow (hK.sendEvent e) (hop _ rfl)) fun r => Keeps.ite (fun _ => ?_) fun _ => hop _ rfl
  exact Keeps.bind (Keeps.onThrow (hK.toPrims.alloc _) (hop _ rfl)) fun _ => Keeps.modify fun m => hq m m.evq _ _ rfl

theorem AllPrims.processQueued (k : Nat) : Keeps K (processQueued P k) := by
  induction k with
  | zero => exact Keeps.bind Keeps.get fun _ => Keeps.pure _
  | succ k ih =>
    unfold SC.processQueued
    refine Keeps.bind Keeps.get fun m => ?_
    split
    · exact Keeps.pure _
    · exact Keeps.bind (Keeps.modify fun m => hq m _ m.dq _ rfl) fun _ => Keeps.bind (hK.dispatch hq _) fun _ => ih

include hh in
/-- A relation that does not depend on the event queues is kept by every call. -/
theorem AllPrims.call (c : Call) : Keeps K (c.run P) := by
  have hop : ∀ o, o.isTurn = true → Keeps K (qop o : M W Unit) := fun o ho => Keeps.modify fun m => hq m m.evq m.dq _ ho
  cases c with
  | initiate k =>
    refine Keeps.bind hK.terminate fun _ => Keeps.bind ?_ fun _ => hK.processQueued hq k
    exact hK.withTrig _ (hK.guardTerm (hK.translated _ hK.initBody))
  | terminate => exact Keeps.bind hK.terminate fun _ => Keeps.pure _
  | process e k => exact Keeps.bind (hop _ rfl) fun _ => Keeps.bind (hK.dispatch hq e) fun _ => hK.processQueued hq k
  | post e =>
    exact Keeps.bind (Keeps.bind (hK.toPrims.alloc _) fun _ => Keeps.modify fun m => hh m _) fun _ => Keeps.pure _
  | clearShallow k =>
    exact Keeps.bind (Keeps.bind (hK.toPrims.allocNode _ _) fun _ => Keeps.modify fun m => hh m _) fun _ => Keeps.pure _
  | clearDeep k =>
    exact Keeps.bind (Keeps.bind (hK.toPrims.allocNode _ _) fun _ => Keeps.modify fun m => hh m _) fun _ => Keeps.pure _

end

/-- Completed exits in the history log also occur in the trace, and the memory is what the log says. -/
structure Remembers (C : Chart) (F : Site → Bool → Prop) (m : Mach W) : Prop where
  exits : m.hlog.filterMap HOp.exit? = (m.trace.map (·.2)).filterMap Obs.exit?
  mem : Bounded C m.hlog → m.mem = recall C m.hlog
  held : Bounded C m.hlog → Held C m.hlog m
  lawful : Bounded C m.hlog → Lawful C F m.hlog

theorem HRel.remembers {C : Chart} {m m' : Mach W} (h : HRel C F b n m m') (hm : Remembers C F m) : Remembers C F m' := by
  obtain ⟨obs, ops, h1, h2, _, h3, h4, h5, _, h6⟩ := h
  refine ⟨?_, ?_, ?_, ?_⟩
  · rw [h2, h1, List.map_append, List.filterMap_append, List.filterMap_append, hm.exits, h3]
  · intro hn
    rw [h2] at hn ⊢
    exact h4 (Bounded.append.1 hn).2 _ (hm.mem (Bounded.append.1 hn).1)
  · intro hn
    rw [h2] at hn ⊢
    exact h5 (Bounded.append.1 hn).2 _ (hm.mem (Bounded.append.1 hn).1) (hm.held (Bounded.append.1 hn).1)
  · intro hn
    rw [h2] at hn ⊢
    exact h6 (Bounded.append.1 hn).2 _ (hm.mem (Bounded.append.1 hn).1) (hm.held (Bounded.append.1 hn).1) (hm.lawful (Bounded.append.1 hn).1)

theorem Reach.remembers (hwf : P.toChart.WF) (h : Reach P m) : Remembers P.toChart P.supply m := by
  have hc : ∀ c : Call, Keeps (histK P.toChart P.supply true) (c.run P) := (histPrims hwf).call (fun m q d o _ => hrel_same rfl rfl rfl rfl rfl rfl) (hrel_cmd _)
  induction h with
  | fresh w => exact ⟨rfl, fun _ => rfl, fun _ _ _ => ⟨rfl, rfl⟩, fun _ l1 o l2 h => by cases l1 <;> cases h⟩
  | @returns c m m' _ _ hr ih => exact HRel.remembers ((hc c).ok hr) ih
  | @throws c x m m' _ _ hr ih => exact HRel.remembers ((hc c).thrown hr) ih
  | world w _ ih => exact ⟨ih.exits, ih.mem, ih.held, ih.lawful⟩

/-- States named in a trace that replays are states of the chart. -/
theorem life_bound {C : Chart} (tr : List Obs) : ∀ st st' : Life, (∀ s, st.act s = true → s < C.n) →
    tr.foldl (fun st o => st.bind fun l => lifeStep C l o) (some st) = some st' →
    (∀ s, Obs.exit s ∈ tr → s < C.n) ∧ (∀ s, st'.act s = true → s < C.n) := by
  induction tr with
  | nil => intro st st' hb h; cases h; exact ⟨by simp, hb⟩
  | cons o tr ih =>
    intro st st' hb h
    simp only [List.foldl_cons, Option.bind_some] at h
    cases ho : lifeStep C st o with
    | none =>
      rw [ho] at h
      exfalso
      have : ∀ l : List Obs, l.foldl (fun st o => st.bind fun l => lifeStep C l o) (none : Option Life) = none := by
        intro l; induction l with
        | nil => rfl
        | cons a l ih => exact ih
      rw [this] at h; cases h
    | some st1 =>
      rw [ho] at h
      have key : (∀ s, st1.act s = true → s < C.n) ∧ (∀ s, o = .exit s → s < C.n) := by
        cases o <;> simp only [lifeStep] at ho <;> split at ho <;> cases ho <;> refine ⟨?_, fun s hs => by cases hs <;> try (apply hb; simp_all)⟩
        all_goals first | exact hb | skip
        · intro x hx
          simp only at hx
          split at hx
          · subst_vars; simp_all
          · exact hb x hx
        · intro x hx
          simp only at hx
          split at hx
          · cases hx
          · exact hb x hx
      obtain ⟨h1, h2⟩ := ih st1 st' key.1 h
      refine ⟨?_, h2⟩
      intro s hs
      rcases List.mem_cons.1 hs with h | h
      · exact key.2 s h.symm
      · exact h1 s h

/-- What any machine a client can have remembers: exactly what its past says. -/
theorem Reach.recall (hwf : P.toChart.WF) (hok : Contract P) (h : Reach P m) :
    m.mem = recall P.toChart m.hlog := by
  have h1 := h.remembers hwf
  have h2 := (h.stable hwf hok).1
  refine h1.mem fun o hs s he => ?_
  have h3 : Obs.exit s ∈ m.trace.map (·.2) := by
    have h4 : s ∈ (m.trace.map (·.2)).filterMap Obs.exit? := by
      rw [← h1.exits]; exact List.mem_filterMap.2 ⟨_, hs, he⟩
    obtain ⟨o, ho, h5⟩ := List.mem_filterMap.1 h4
    cases o <;> cases h5
    exact ho
  exact (life_bound _ _ _ (fun s h => by cases h) h2.inv.tr).1 s h3

end SC
