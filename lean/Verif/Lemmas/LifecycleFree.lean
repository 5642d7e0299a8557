import Verif.Lemmas.LifecycleInv

/-! The groups that have been replaced can always be brought to their end. -/

namespace Verif.Lifecycle
open Spec

/-- Nothing but the groups of `M` and their cleaner changes, and these go forward. -/
structure Fwd (M k : Nat) (a b : St) : Prop where
  len : b.mods.length = a.mods.length
  cur : b.cur = a.cur
  load : b.load = a.load
  snd : b.senders = a.senders
  other : ∀ (i : Nat) (m : Mod), a.mods[i]? = some m → m.map ≠ M → b.mods[i]? = some m
  mine : ∀ (i : Nat) (m : Mod), a.mods[i]? = some m → m.map = M → ∃ m', b.mods[i]? = some m' ∧ m'.map = M
    ∧ (m.isServer = false → m'.isServer = false) ∧ (m.wk = .gone → m'.wk = .gone) ∧ (m.sw = .gone → m'.sw = .gone)

theorem Fwd.refl (M k : Nat) (a : St) : Fwd M k a a :=
  ⟨rfl, rfl, rfl, rfl, fun _ _ h _ => h, fun _ m h hm => ⟨m, h, hm, id, id, id⟩⟩

theorem Fwd.trans {M k : Nat} {a b c : St} (h : Fwd M k a b) (g : Fwd M k b c) : Fwd M k a c := by
  refine ⟨g.len.trans h.len, g.cur.trans h.cur, g.load.trans h.load, g.snd.trans h.snd, fun i m hm hn => g.other i m (h.other i m hm hn) hn, ?_⟩
  intro i m hm he
  obtain ⟨x, hx, h1, h2, h3, h4⟩ := h.mine i m hm he
  obtain ⟨y, hy, g1, g2, g3, g4⟩ := g.mine i x hx h1
  exact ⟨y, hy, g1, g2 ∘ h2, g3 ∘ h3, g4 ∘ h4⟩

/-- By events of the background only, a state with `P` is reached. -/
def Reach (M k : Nat) (a : St) (P : St → Prop) : Prop :=
  ∃ es, (∀ e ∈ es, Background e) ∧ ∃ b, run a es = some b ∧ Inv b ∧ Fwd M k a b ∧ P b

theorem run_append {es fs : List Ev} : ∀ {a b : St}, run a es = some b → run a (es ++ fs) = run b fs := by
  induction es with
  | nil => intro a b h; cases h; rfl
  | cons e es ih =>
    intro a b h
    simp only [run, List.cons_append] at h ⊢
    cases hs : step a e with
    | none => rw [hs] at h; cases h
    | some x => rw [hs] at h; exact ih h

theorem Reach.here {M k : Nat} {a : St} {P : St → Prop} (hi : Inv a) (h : P a) : Reach M k a P :=
  ⟨[], by simp, a, rfl, hi, Fwd.refl M k a, h⟩

theorem Reach.bind {M k : Nat} {a : St} {P Q : St → Prop} (h : Reach M k a P) (g : ∀ b, Inv b → Fwd M k a b → P b → Reach M k b Q) :
    Reach M k a Q := by
  obtain ⟨es, h1, b, h2, h3, h4, h5⟩ := h
  obtain ⟨fs, g1, c, g2, g3, g4, g5⟩ := g b h3 h4 h5
  refine ⟨es ++ fs, ?_, c, by rw [run_append h2]; exact g2, g3, h4.trans g4, g5⟩
  intro e he
  rcases List.mem_append.mp he with he | he
  · exact h1 e he
  · exact g1 e he

theorem background_calm {st : St} {e : Ev} (h : Background e) : ¬ Accident st e := by
  cases e with
  | work i l =>
    cases l with
    | fine => exact id
    | fails => exact absurd h id
    | quiet => exact absurd h id
  | sweep i => exact id
  | clean i => exact id
  | enter i => exact absurd h id
  | send i => exact absurd h id
  | loadBegin => exact absurd h id
  | loadStart k => exact absurd h id
  | loadFail => exact absurd h id
  | loadSwap => exact absurd h id

theorem Reach.one {M k : Nat} {a b : St} {P : St → Prop} {e : Ev} (hi : Inv a) (he : Background e) (hs : step a e = some b) (hf : Fwd M k a b) (h : P b) :
    Reach M k a P := by
  obtain ⟨b', h1, h2⟩ := step_inv hi (background_calm he)
  have : b' = b := Option.some.inj (h1.symm.trans hs)
  subst this
  refine ⟨[e], by simpa using he, b', by simp [run, hs], h2, hf, h⟩

/-- How far a worker is from its end. -/
def Work.rank : Work → Nat
  | .open => 9 | .wait => 8 | .recv => 7 | .take => 6 | .test => 5 | .stop => 4 | .close => 3 | .drop => 2 | .last => 1 | .gone => 0

/-- How far a sweeper is from its end, once the worker is at its. -/
def Sweep.rank : Sweep → Nat
  | .sweep => 5 | .test => 4 | .free => 3 | .unlock => 2 | .last => 1 | .gone => 0

theorem work_rank {m m' : Mod} (hs : m.isServer = false) (hw : m.wk ≠ .gone) (h : workStep m .fine = some m') :
    m'.wk.rank < m.wk.rank ∧ m'.isServer = false ∧ m'.sw = m.sw := by
  rcases m with ⟨k, map, isS, work, sweep, isO, addrs, prox, ctx, lock, blk, wk, sw⟩
  dsimp only at hs hw
  subst hs
  cases blk
  · cases wk <;> simp_all [workStep]
  · cases wk
    case gone => exact absurd rfl hw
    case drop =>
      cases k <;> cases addrs <;> cases ctx <;> cases prox <;> simp [workStep, free] at h <;> subst h <;> simp [Work.rank]
    all_goals
      cases k <;> cases isO <;> simp [workStep] at h <;> (try obtain ⟨_, h⟩ := h) <;> (try obtain ⟨_, h⟩ := h) <;> (try split at h) <;> (try cases h) <;> (try subst h) <;>
        (try simp [Work.rank])

theorem sweep_rank {m m' : Mod} (hs : m.isServer = false) (hk : m.work = false) (hw : m.sw ≠ .gone) (h : sweepStep m = some m') :
    m'.sw.rank < m.sw.rank ∧ m'.isServer = false ∧ m'.work = false ∧ m'.wk = m.wk := by
  rcases m with ⟨k, map, isS, work, sweep, isO, addrs, prox, ctx, lock, blk, wk, sw⟩
  dsimp only at hs hw hk
  subst hs hk
  cases blk
  · cases sw <;> simp_all [sweepStep]
  · cases sw
    case gone => exact absurd rfl hw
    all_goals
      cases ctx <;> cases lock <;> simp [sweepStep, free] at h <;> subst h <;> simp [Sweep.rank]

theorem set_self {α} {l : List α} {i : Nat} {a b : α} (h : l[i]? = some a) : (l.set i b)[i]? = some b := by
  have := (List.getElem?_eq_some_iff.mp h).1
  simp [this]

theorem fwd_set {M k : Nat} {st : St} {i : Nat} {m m' : Mod} (hm : st.mods[i]? = some m) (hM : m.map = M) (h1 : m'.map = m.map)
    (h2 : m.isServer = false → m'.isServer = false) (h3 : m.wk = .gone → m'.wk = .gone) (h4 : m.sw = .gone → m'.sw = .gone) (cs : List Cleaner) :
    Fwd M k st { st with mods := st.mods.set i m', cleaners := cs } := by
  refine ⟨by simp, rfl, rfl, rfl, ?_, ?_⟩
  · intro j x hx hn
    show (st.mods.set i m')[j]? = some x
    by_cases hij : i = j
    · subst hij
      have : x = m := Option.some.inj (hx.symm.trans hm)
      subst this
      exact absurd hM hn
    · rw [List.getElem?_set_ne hij]; exact hx
  · intro j x hx he
    show ∃ y, (st.mods.set i m')[j]? = some y ∧ _
    by_cases hij : i = j
    · subst hij
      have : x = m := Option.some.inj (hx.symm.trans hm)
      subst this
      exact ⟨m', set_self hm, h1.trans hM, h2, h3, h4⟩
    · exact ⟨x, by rw [List.getElem?_set_ne hij]; exact hx, he, id, id, id⟩

/-- The worker of a stopped group comes to its end. -/
theorem reach_worker {M k i : Nat} : ∀ (r : Nat) {st : St} {m : Mod}, m.wk.rank ≤ r → Inv st → st.mods[i]? = some m → m.map = M → m.isServer = false →
    Reach M k st fun b => b.cleaners = st.cleaners ∧ ∃ m', b.mods[i]? = some m' ∧ m'.map = M ∧ m'.isServer = false ∧ m'.wk = .gone := by
  intro r
  induction r with
  | zero =>
    intro st m hr hi hm hM hs
    refine Reach.here hi ⟨rfl, m, hm, hM, hs, ?_⟩
    cases hw : m.wk <;> rw [hw] at hr <;> simp [Work.rank] at hr
  | succ r ih =>
    intro st m hr hi hm hM hs
    by_cases hw : m.wk = .gone
    · exact Reach.here hi ⟨rfl, m, hm, hM, hs, hw⟩
    · obtain ⟨m', h1, h2, h3⟩ := work_good .fine (hi.good i m hm) (by simp)
      obtain ⟨g1, g2, _⟩ := work_rank hs hw h1
      refine Reach.bind (P := fun b => b.cleaners = st.cleaners ∧ b.mods[i]? = some m')
        (Reach.one (e := .work i .fine) hi trivial (b := { st with mods := st.mods.set i m' }) (by simp only [step, hm, h1, Option.map_some])
          (fwd_set hm hM h3.2.1 (fun _ => g2) h3.2.2.2.1 h3.2.2.2.2 st.cleaners) ⟨rfl, set_self hm⟩) ?_
      rintro b hb _ ⟨hc, hbm⟩
      refine Reach.bind (ih (by omega) hb hbm (h3.2.1.trans hM) g2) ?_
      rintro b' hb' _ ⟨hc', h'⟩
      exact Reach.here hb' ⟨hc'.trans hc, h'⟩

/-- The sweeper of a stopped group whose worker is gone comes to its end. -/
theorem reach_sweeper {M k i : Nat} : ∀ (r : Nat) {st : St} {m : Mod}, m.sw.rank ≤ r → Inv st → st.mods[i]? = some m → m.map = M → m.isServer = false →
    m.work = false → m.wk = .gone →
    Reach M k st fun b => b.cleaners = st.cleaners ∧ ∃ m', b.mods[i]? = some m' ∧ m'.wk = .gone ∧ m'.sw = .gone := by
  intro r
  induction r with
  | zero =>
    intro st m hr hi hm hM hs _ hg
    refine Reach.here hi ⟨rfl, m, hm, hg, ?_⟩
    cases hw : m.sw <;> rw [hw] at hr <;> simp [Sweep.rank] at hr
  | succ r ih =>
    intro st m hr hi hm hM hs hwk hg
    by_cases hw : m.sw = .gone
    · exact Reach.here hi ⟨rfl, m, hm, hg, hw⟩
    · obtain ⟨m', h1, h2, h3⟩ := sweep_good (hi.good i m hm)
      obtain ⟨g1, g2, g3, g4⟩ := sweep_rank hs hwk hw h1
      refine Reach.bind (P := fun b => b.cleaners = st.cleaners ∧ b.mods[i]? = some m')
        (Reach.one (e := .sweep i) hi trivial (b := { st with mods := st.mods.set i m' }) (by simp only [step, hm, h1, Option.map_some])
          (fwd_set hm hM h3.2.1 (fun _ => g2) h3.2.2.2.1 h3.2.2.2.2 st.cleaners) ⟨rfl, set_self hm⟩) ?_
      rintro b hb _ ⟨hc, hbm⟩
      refine Reach.bind (ih (by omega) hb hbm (h3.2.1.trans hM) g2 g3 (g4.trans hg)) ?_
      rintro b' hb' _ ⟨hc', h'⟩
      exact Reach.here hb' ⟨hc'.trans hc, h'⟩

theorem gone_handles {live : Prop} {m : Mod} (h : Good live m) (hw : m.wk = .gone) : m.work = false ∧ (m.sw = .gone → m.sweep = false) := by
  rcases m with ⟨k, map, isS, work, sweep, isO, addrs, prox, ctx, lock, blk, wk, sw⟩
  dsimp only at hw
  subst hw
  cases k <;> simp_all [Good]

/-- All groups of the set, up to `n`, come to their end. -/
theorem reach_gone {M k : Nat} : ∀ (n : Nat) {st : St}, Inv st → (∀ (i : Nat) (m : Mod), st.mods[i]? = some m → m.map = M → m.isServer = false) →
    Reach M k st fun b => b.cleaners = st.cleaners ∧ ∀ (i : Nat) (m : Mod), i < n → b.mods[i]? = some m → m.map = M → m.wk = .gone ∧ m.sw = .gone := by
  intro n
  induction n with
  | zero => intro st hi _; exact Reach.here hi ⟨rfl, fun i _ h => absurd h (Nat.not_lt_zero i)⟩
  | succ n ih =>
    intro st hi hst
    refine Reach.bind (ih hi hst) ?_
    rintro b hb hf ⟨hc, hg⟩
    -- what a group is now, it was one of the set before
    have hback : ∀ (x y : St), Fwd M k x y → ∀ (i : Nat) (m : Mod), y.mods[i]? = some m → m.map = M →
        ∃ z, x.mods[i]? = some z ∧ z.map = M := by
      intro x y hxy i m hm hM
      have hlt : i < x.mods.length := by
        rw [← hxy.len]; exact (List.getElem?_eq_some_iff.mp hm).1
      have hz := List.getElem?_eq_getElem hlt
      refine ⟨x.mods[i], hz, ?_⟩
      apply Classical.byContradiction
      intro hne
      have := hxy.other i _ hz hne
      rw [hm] at this
      exact hne (by rw [← Option.some.inj this]; exact hM)
    have hkeep : ∀ (x y : St), Fwd M k x y → (∀ (i : Nat) (m : Mod), x.mods[i]? = some m → m.map = M → m.isServer = false) →
        ∀ (i : Nat) (m : Mod), y.mods[i]? = some m → m.map = M → m.isServer = false := by
      intro x y hxy hx i m hm hM
      obtain ⟨z, hz, hzM⟩ := hback x y hxy i m hm hM
      obtain ⟨w, hw, _, h2, _⟩ := hxy.mine i z hz hzM
      have : w = m := Option.some.inj (hw.symm.trans hm)
      subst this
      exact h2 (hx i z hz hzM)
    have hkeepg : ∀ (x y : St), Fwd M k x y → ∀ q, (∀ (i : Nat) (m : Mod), i < q → x.mods[i]? = some m → m.map = M → m.wk = .gone ∧ m.sw = .gone) →
        ∀ (i : Nat) (m : Mod), i < q → y.mods[i]? = some m → m.map = M → m.wk = .gone ∧ m.sw = .gone := by
      intro x y hxy q hx i m hiq hm hM
      obtain ⟨z, hz, hzM⟩ := hback x y hxy i m hm hM
      obtain ⟨w, hw, _, _, h3, h4⟩ := hxy.mine i z hz hzM
      have : w = m := Option.some.inj (hw.symm.trans hm)
      subst this
      obtain ⟨a, c⟩ := hx i z hiq hz hzM
      exact ⟨h3 a, h4 c⟩
    have hstb := hkeep st b hf hst
    by_cases hn : ∃ m, b.mods[n]? = some m ∧ m.map = M
    · obtain ⟨m, hm, hM⟩ := hn
      refine Reach.bind (reach_worker _ (Nat.le_refl _) hb hm hM (hstb n m hm hM)) ?_
      rintro b1 hb1 hf1 ⟨hc1, m1, hm1, hM1, hs1, hw1⟩
      obtain ⟨hh1, _⟩ := gone_handles (hb1.good n m1 hm1) hw1
      refine Reach.bind (reach_sweeper _ (Nat.le_refl _) hb1 hm1 hM1 hs1 hh1 hw1) ?_
      rintro b2 hb2 hf2 ⟨hc2, m2, hm2, hw2, hsw2⟩
      refine Reach.here hb2 ⟨hc2.trans (hc1.trans hc), ?_⟩
      intro i x hi' hx hxM
      by_cases hin : i = n
      · subst hin
        have : x = m2 := Option.some.inj (hx.symm.trans hm2)
        subst this
        exact ⟨hw2, hsw2⟩
      · exact hkeepg b b2 (hf1.trans hf2) n hg i x (by omega) hx hxM
    · refine Reach.here hb ⟨hc, ?_⟩
      intro i x hi' hx hxM
      by_cases hin : i = n
      · subst hin
        exact absurd ⟨x, hx, hxM⟩ hn
      · exact hg i x (by omega) hx hxM

/-- A cleaner looks at all groups from where it is. -/
theorem reach_round {M k : Nat} : ∀ (n : Nat) {st : St} {c : Cleaner}, st.mods.length ≤ c.pos + n → Inv st → st.cleaners[k]? = some c → c.map = M →
    Reach M k st fun b => ∃ c', b.cleaners[k]? = some c' ∧ c'.map = M ∧ b.mods.length ≤ nextOf b.mods M c'.pos
      ∧ (∀ (i : Nat) (m : Mod), c.pos ≤ i → b.mods[i]? = some m → m.map = M → m.isServer = false)
      ∧ (c.inUse = false → (∀ (i : Nat) (m : Mod), c.pos ≤ i → st.mods[i]? = some m → m.map = M → m.wk = .gone ∧ m.sw = .gone) → c'.inUse = false) := by
  intro n
  induction n with
  | zero =>
    intro st c hn hi hc hM
    have hge := nextOf_ge st.mods M c.pos
    refine Reach.here hi ⟨c, hc, hM, by omega, ?_, fun h _ => h⟩
    intro i m hp hm _
    have := (List.getElem?_eq_some_iff.mp hm).1
    omega
  | succ n ih =>
    intro st c hn hi hc hM
    have hge := nextOf_ge st.mods M c.pos
    cases hm : st.mods[nextOf st.mods M c.pos]? with
    | none =>
      have h2 : st.mods.length ≤ nextOf st.mods M c.pos := by simpa using hm
      refine Reach.here hi ⟨c, hc, hM, h2, ?_, fun h _ => h⟩
      intro i m hp hm' hmM
      have h1 := (List.getElem?_eq_some_iff.mp hm').1
      exact absurd hmM (nextOf_skip hp (by omega) hm')
    | some m =>
      have hmM := nextOf_own hm
      have hcm := List.mem_of_getElem? hc
      have hb := hi.clb c hcm _ _ hm (hmM.trans hM.symm)
      generalize hp : nextOf st.mods M c.pos = p at *
      have hskip : ∀ (i : Nat) (x : Mod), c.pos ≤ i → st.mods[i]? = some x → x.map = M → p ≤ i := by
        intro i x h1 hx hxM
        rcases Nat.lt_or_ge i p with h | h
        · exact absurd hxM (nextOf_skip h1 (by omega) hx)
        · exact h
      refine Reach.bind (P := fun b => b = { st with mods := st.mods.set p { m with isServer := false }, cleaners := st.cleaners.set k ⟨c.map, p + 1, c.inUse || m.work || m.sweep⟩ })
        (Reach.one (e := .clean k) hi trivial (b := { st with mods := st.mods.set p { m with isServer := false }, cleaners := st.cleaners.set k ⟨c.map, p + 1, c.inUse || m.work || m.sweep⟩ })
          (by simp [step, hc, cleanStep, hM, hp, hm, hb]) (fwd_set (m' := { m with isServer := false }) hm hmM rfl (fun _ => rfl) id id _) rfl) ?_
      rintro b hbi hbf rfl
      refine Reach.bind (ih (c := ⟨c.map, p + 1, c.inUse || m.work || m.sweep⟩) (by simp; omega) hbi (set_self hc) hM) ?_
      rintro b2 hb2 hf2 ⟨c', g1, g2, g3, g4, g5⟩
      refine Reach.here hb2 ⟨c', g1, g2, g3, ?_, ?_⟩
      · intro i x hpi hx hxM
        rcases Nat.lt_trichotomy i p with hip | hip | hip
        · exfalso
          have hlt : i < st.mods.length := by
            have := (List.getElem?_eq_some_iff.mp hm).1; omega
          have hz := List.getElem?_eq_getElem hlt
          have hne : st.mods[i].map ≠ M := fun h => by have := hskip i _ hpi hz h; omega
          have h2 := hf2.other i st.mods[i] (by show (st.mods.set p _)[i]? = _; rw [List.getElem?_set_ne (by omega)]; exact hz) hne
          rw [hx] at h2
          exact hne (by rw [← Option.some.inj h2]; exact hxM)
        · subst hip
          obtain ⟨y, hy, _, h2, _⟩ := hf2.mine i { m with isServer := false } (set_self hm) hmM
          have : y = x := Option.some.inj (hy.symm.trans hx)
          subst this
          exact h2 rfl
        · exact g4 i x (by show p + 1 ≤ i; omega) hx hxM
      · intro hu hall
        have hgm := hall p m hge hm hmM
        obtain ⟨a1, a2⟩ := gone_handles (hi.good _ _ hm) hgm.1
        refine g5 (by simp [hu, a1, a2 hgm.2]) ?_
        intro i x hpi hx hxM
        have hpi : p + 1 ≤ i := hpi
        have hx : (st.mods.set p { m with isServer := false })[i]? = some x := hx
        rw [List.getElem?_set_ne (by omega)] at hx
        exact hall i x (by omega) hx hxM

/-- A finished round remains finished. -/
theorem fwd_over {M k p : Nat} {a b : St} (hf : Fwd M k a b) (h : a.mods.length ≤ nextOf a.mods M p) : b.mods.length ≤ nextOf b.mods M p := by
  apply Classical.byContradiction
  intro hn
  have hlt : nextOf b.mods M p < b.mods.length := by omega
  have hx := List.getElem?_eq_getElem hlt
  have hown := nextOf_own hx
  have hlt' : nextOf b.mods M p < a.mods.length := by rw [← hf.len]; exact hlt
  have hz := List.getElem?_eq_getElem hlt'
  have hne := nextOf_skip (map := M) (nextOf_ge b.mods M p) (by omega) hz
  have := hf.other _ _ hz hne
  rw [hx] at this
  exact hne (by rw [← Option.some.inj this]; exact hown)

/-- The set has been freed. -/
def Freed (M : Nat) (b : St) : Prop := ∀ (i : Nat) (m : Mod), b.mods[i]? = some m → m.map = M → m.blk = false

theorem reach_end {M k : Nat} {st : St} {c : Cleaner} (hi : Inv st) (hc : st.cleaners[k]? = some c) (hM : c.map = M) (hp : st.mods.length ≤ nextOf st.mods M c.pos) :
    Reach M k st fun b => Freed M b ∨ (c.inUse = true ∧ b.mods = st.mods ∧ b.cleaners[k]? = some ⟨M, 0, false⟩) := by
  have hm : st.mods[nextOf st.mods c.map c.pos]? = none := by rw [hM]; simpa using hp
  cases hu : c.inUse with
  | true =>
    have hstep : step st (.clean k) = some { st with cleaners := st.cleaners.set k ⟨c.map, 0, false⟩ } := by
      simp [step, hc, cleanStep, hm, hu]
    refine Reach.one (e := .clean k) hi trivial hstep ⟨rfl, rfl, rfl, rfl, fun _ _ h _ => h, fun _ x h hx => ⟨x, h, hx, id, id, id⟩⟩ (.inr ⟨rfl, rfl, ?_⟩)
    rw [← hM]
    exact set_self hc
  | false =>
    have hcm := List.mem_of_getElem? hc
    have hfree := freeMap_some (n := c.map) (ms := st.mods) (fun i m => hi.clb c hcm i m)
    have hstep : step st (.clean k) = some { st with mods := st.mods.map (fun m => if m.map = c.map then { m with blk := false } else m), cleaners := st.cleaners.eraseIdx k } := by
      simp [step, hc, cleanStep, hm, hu, hfree]
    have hget : ∀ (i : Nat), (st.mods.map (fun m => if m.map = c.map then { m with blk := false } else m))[i]? =
        (st.mods[i]?).map (fun m => if m.map = c.map then { m with blk := false } else m) := fun i => List.getElem?_map
    refine Reach.one (e := .clean k) hi trivial hstep ⟨by simp, rfl, rfl, rfl, ?_, ?_⟩ (.inl ?_)
    · intro i m hm' hne
      show (st.mods.map _)[i]? = some m
      rw [hget, hm', Option.map_some, if_neg (fun h => hne (h.trans hM))]
    · intro i m hm' he
      refine ⟨{ m with blk := false }, ?_, he, id, id, id⟩
      show (st.mods.map _)[i]? = some { m with blk := false }
      rw [hget, hm', Option.map_some, if_pos (he.trans hM.symm)]
    · intro i m hm' he
      have hm' : (st.mods.map (fun m => if m.map = c.map then { m with blk := false } else m))[i]? = some m := hm'
      rw [hget] at hm'
      cases hx : st.mods[i]? with
      | none => rw [hx] at hm'; cases hm'
      | some x =>
        rw [hx, Option.map_some] at hm'
        have := Option.some.inj hm'
        subst this
        split
        · rfl
        · rename_i hne
          rw [if_neg hne] at he
          exact absurd (he.trans hM.symm) hne

/-- A replaced set of groups can be freed. -/
theorem reach_freed {M k : Nat} {st : St} {c : Cleaner} (hi : Inv st) (hc : st.cleaners[k]? = some c) (hM : c.map = M) : Reach M k st (Freed M) := by
  -- the round it is in
  refine Reach.bind (reach_round st.mods.length (by omega) hi hc hM) ?_
  rintro b1 hb1 _ ⟨c1, h11, h12, h13, _⟩
  refine Reach.bind (reach_end hb1 h11 h12 h13) ?_
  rintro b2 hb2 _ (h | ⟨_, _, h2⟩)
  · exact Reach.here hb2 h
  -- a whole round
  refine Reach.bind (reach_round b2.mods.length (by simp) hb2 h2 rfl) ?_
  rintro b3 hb3 _ ⟨c3, h31, h32, h33, h34, _⟩
  refine Reach.bind (reach_gone b3.mods.length hb3 (fun i m => h34 i m (Nat.zero_le _))) ?_
  rintro b4 hb4 hf4 ⟨hc4, hg4⟩
  have hlen := hf4.len
  refine Reach.bind (reach_end hb4 (by rw [hc4]; exact h31) h32 (fwd_over hf4 h33)) ?_
  rintro b5 hb5 hf5 (h | ⟨_, h51, h52⟩)
  · exact Reach.here hb5 h
  -- the last round
  refine Reach.bind (reach_round b5.mods.length (by simp) hb5 h52 rfl) ?_
  rintro b6 hb6 hf6 ⟨c6, h61, h62, h63, _, h65⟩
  have hu : c6.inUse = false := by
    apply h65 rfl
    intro i m _ hm hmM
    rw [h51] at hm
    refine hg4 i m ?_ hm hmM
    rw [← hlen]
    exact (List.getElem?_eq_some_iff.mp hm).1
  refine Reach.bind (reach_end hb6 h61 h62 h63) ?_
  rintro b7 hb7 _ (h | ⟨h, _⟩)
  · exact Reach.here hb7 h
  · rw [hu] at h; cases h

/-! ### Sockets are closed -/

/-- A worker that is about to free has closed its socket. -/
def Closed (m : Mod) : Prop := m.wk = .drop ∨ m.wk = .last ∨ m.wk = .gone → m.isOpen = false

theorem work_closed {m m' : Mod} {l : Luck} (h : Closed m) (hs : workStep m l = some m') : Closed m' := by
  rcases m with ⟨k, map, isS, work, sweep, isO, addrs, prox, ctx, lock, blk, wk, sw⟩
  cases wk
  case gone => cases hs; exact h
  case drop =>
    have ho : isO = false := h (.inl rfl)
    subst ho
    cases blk
    · cases hs
    · cases k <;> cases addrs <;> cases ctx <;> cases prox <;> simp [workStep, free] at hs <;> subst hs <;> simp [Closed]
  case last =>
    have ho : isO = false := h (.inr (.inl rfl))
    subst ho
    cases blk
    · cases hs
    · cases hs; simp [Closed]
  case close =>
    cases blk
    · cases hs
    · cases hs; simp [Closed]
  all_goals
    cases blk
    · cases hs
    · cases k <;> cases isO <;> cases isS <;> cases l <;> simp [workStep] at hs <;> (try obtain ⟨_, hs⟩ := hs) <;> (try obtain ⟨_, hs⟩ := hs) <;>
        (try subst hs) <;> (try simp [Closed])

theorem sweep_closed {m m' : Mod} (h : Closed m) (hs : sweepStep m = some m') : Closed m' := by
  rcases m with ⟨k, map, isS, work, sweep, isO, addrs, prox, ctx, lock, blk, wk, sw⟩
  cases sw
  case gone => cases hs; exact h
  all_goals
    cases blk
    · cases hs
    · cases ctx <;> cases lock <;> simp [sweepStep, free] at hs <;> subst hs <;> exact h

theorem freeMap_closed {n : Nat} {ms ms' : List Mod} (h : ∀ m ∈ ms, Closed m) (hs : freeMap n ms = some ms') : ∀ m ∈ ms', Closed m := by
  unfold freeMap at hs
  split at hs
  · cases hs
  · have := Option.some.inj hs
    subst this
    intro m hm
    obtain ⟨x, hx, rfl⟩ := List.mem_map.mp hm
    split
    · exact h x hx
    · exact h x hx

theorem set_closed {ms : List Mod} {i : Nat} {m : Mod} (h : ∀ x ∈ ms, Closed x) (hm : Closed m) : ∀ x ∈ ms.set i m, Closed x := by
  intro x hx
  rcases List.mem_or_eq_of_mem_set hx with hx | rfl
  · exact h x hx
  · exact hm

theorem step_closed {st st' : St} {e : Ev} (h : ∀ m ∈ st.mods, Closed m) (hs : step st e = some st') : ∀ m ∈ st'.mods, Closed m := by
  cases e with
  | work i l =>
    simp only [step] at hs
    split at hs
    · cases hs; exact h
    · rename_i m hm
      obtain ⟨m', h1, rfl⟩ := Option.map_eq_some_iff.mp hs
      exact set_closed h (work_closed (h m (List.mem_of_getElem? hm)) h1)
  | sweep i =>
    simp only [step] at hs
    split at hs
    · cases hs; exact h
    · rename_i m hm
      obtain ⟨m', h1, rfl⟩ := Option.map_eq_some_iff.mp hs
      exact set_closed h (sweep_closed (h m (List.mem_of_getElem? hm)) h1)
  | enter i =>
    simp only [step] at hs
    split at hs
    · cases hs; exact h
    · split at hs <;> cases hs <;> exact h
  | send k =>
    simp only [step] at hs
    split at hs
    · cases hs; exact h
    · cases hs; exact h
    · split at hs
      · cases hs
      · obtain ⟨m', h1, rfl⟩ := Option.map_eq_some_iff.mp hs
        exact h
  | clean k =>
    simp only [step] at hs
    split at hs
    · cases hs; exact h
    · unfold cleanStep at hs
      dsimp only at hs
      split at hs
      · rename_i m hm
        split at hs
        · cases hs
        · cases hs; exact set_closed h (h m (List.mem_of_getElem? hm))
      · split at hs
        · cases hs; exact h
        · split at hs
          · cases hs
          · rename_i ms hms
            cases hs
            exact freeMap_closed h hms
  | loadBegin =>
    simp only [step] at hs
    split at hs <;> cases hs <;> exact h
  | loadStart k =>
    simp only [step] at hs
    split at hs
    · cases hs; exact h
    · cases hs
      intro m hm
      rcases List.mem_append.mp hm with hm | hm
      · exact h m hm
      · simp only [List.mem_singleton] at hm
        subst hm
        cases k <;> simp [Closed, Mod.new]
  | loadFail =>
    simp only [step] at hs
    split at hs
    · cases hs; exact h
    · obtain ⟨ms, h1, rfl⟩ := Option.map_eq_some_iff.mp hs
      exact freeMap_closed h h1
  | loadSwap =>
    simp only [step] at hs
    split at hs
    · cases hs; exact h
    · split at hs <;> cases hs <;> exact h

theorem run_closed {es : List Ev} : ∀ {st st' : St}, (∀ m ∈ st.mods, Closed m) → run st es = some st' → ∀ m ∈ st'.mods, Closed m := by
  induction es with
  | nil => intro st st' h hr; cases hr; exact h
  | cons e es ih =>
    intro st st' h hr
    simp only [run] at hr
    split at hr
    · cases hr
    · rename_i s1 hs
      exact ih (step_closed h hs) hr

/-- Nothing is left of a freed group. -/
theorem freed_all {live : Prop} {m : Mod} (h : Good live m) (hb : m.blk = false) : m.wk = .gone ∧ m.sw = .gone ∧ m.addrs = false ∧ m.ctx = false
    ∧ (m.kind = .udp → m.lock = false) ∧ m.kind ≠ .proxied := by
  rcases m with ⟨k, map, isS, work, sweep, isO, addrs, prox, ctx, lock, blk, wk, sw⟩
  dsimp only at hb
  subst hb
  cases k
  · simp only [Good] at h
    obtain ⟨h1, h2, h3, h4, h5, h6, h7, h8, h9⟩ := h
    obtain ⟨rfl, rfl, _⟩ := h9 trivial
    exact ⟨rfl, rfl, h3, h4, fun _ => h5, by simp⟩
  · simp only [Good] at h
    obtain ⟨h1, h2, h3, h4, h5, h6, h7, h8, h9⟩ := h
    obtain ⟨rfl, _⟩ := h9 trivial
    exact ⟨rfl, h3, h4, h5, by simp, by simp⟩
  · simp [Good] at h

end Verif.Lifecycle
