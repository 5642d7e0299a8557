import Verif.Lemmas.LifecycleFree

/-! When no thread waits for ever, replaced groups are freed. -/

namespace Verif.Lifecycle
open Spec

/-- A group only goes forward. -/
structure Ahead (m m' : Mod) : Prop where
  map : m'.map = m.map
  blk : m.blk = false → m'.blk = false
  srv : m.isServer = false → m'.isServer = false ∧ m'.wk.rank ≤ m.wk.rank
  wk : m.wk = .gone → m'.wk = .gone
  work : m.work = false → m'.work = false
  swr : m.isServer = false → m.work = false → m'.sw.rank ≤ m.sw.rank
  sw : m.sw = .gone → m'.sw = .gone

theorem Ahead.refl (m : Mod) : Ahead m m := ⟨rfl, id, fun h => ⟨h, Nat.le_refl _⟩, id, id, fun _ _ => Nat.le_refl _, id⟩

theorem Ahead.trans {a b c : Mod} (h : Ahead a b) (g : Ahead b c) : Ahead a c :=
  ⟨g.map.trans h.map, g.blk ∘ h.blk, fun x => ⟨(g.srv (h.srv x).1).1, Nat.le_trans (g.srv (h.srv x).1).2 (h.srv x).2⟩, g.wk ∘ h.wk, g.work ∘ h.work,
    fun x y => Nat.le_trans (g.swr (h.srv x).1 (h.work y)) (h.swr x y), g.sw ∘ h.sw⟩

/-- The step of a worker, whatever it meets. -/
theorem work_less {m m' : Mod} {l : Luck} (hs : m.isServer = false) (hw : m.wk ≠ .gone) (h : workStep m l = some m') : m'.wk.rank < m.wk.rank := by
  rcases m with ⟨k, map, isS, work, sweep, isO, addrs, prox, ctx, lock, blk, wk, sw⟩
  dsimp only at hs hw
  subst hs
  cases blk
  · cases wk <;> simp_all [workStep]
  · cases wk
    case gone => exact absurd rfl hw
    case drop =>
      cases k <;> cases addrs <;> cases ctx <;> cases prox <;> simp [workStep, free] at h <;> subst h <;> simp [Work.rank]
    all_goals
      cases k <;> cases isO <;> cases l <;> simp [workStep] at h <;> (try obtain ⟨_, h⟩ := h) <;> (try obtain ⟨_, h⟩ := h) <;> (try split at h) <;> (try cases h) <;> (try subst h) <;>
        (try simp [Work.rank])

theorem work_ahead {m m' : Mod} {l : Luck} (h : workStep m l = some m') : Ahead m m' := by
  by_cases hg : m.wk = .gone
  · have : m' = m := by
      rcases m with ⟨k, map, isS, work, sweep, isO, addrs, prox, ctx, lock, blk, wk, sw⟩
      dsimp only at hg
      subst hg
      cases h; rfl
    subst this
    exact Ahead.refl _
  · have hr := fun hs => work_less (m := m) (l := l) hs hg h
    refine ⟨?_, ?_, fun hs => ⟨?_, Nat.le_of_lt (hr hs)⟩, fun x => absurd x hg, ?_, fun _ _ => ?_, fun x => ?_⟩
    all_goals
      rcases m with ⟨k, map, isS, work, sweep, isO, addrs, prox, ctx, lock, blk, wk, sw⟩
      clear hr
      cases blk
      · cases wk <;> simp_all [workStep]
      · cases wk
        case gone => exact absurd rfl hg
        case drop =>
          cases k <;> cases addrs <;> cases ctx <;> cases prox <;> simp [workStep, free] at h <;> subst h <;> simp_all
        all_goals
          cases k <;> cases isO <;> cases l <;> simp [workStep] at h <;> (try obtain ⟨_, h⟩ := h) <;> (try obtain ⟨_, h⟩ := h) <;> (try split at h) <;> (try cases h) <;> (try subst h) <;>
            (try simp_all)

theorem sweep_ahead {m m' : Mod} (h : sweepStep m = some m') : Ahead m m' := by
  rcases m with ⟨k, map, isS, work, sweep, isO, addrs, prox, ctx, lock, blk, wk, sw⟩
  cases sw
  case gone => cases h; exact Ahead.refl _
  all_goals
    cases blk
    · cases h
    · cases ctx <;> cases lock <;> simp [sweepStep, free] at h <;> subst h <;>
        exact ⟨rfl, id, fun x => ⟨x, Nat.le_refl _⟩, id, id, by simp_all [Sweep.rank], by simp⟩

theorem stop_ahead (m : Mod) : Ahead m { m with isServer := false } :=
  ⟨rfl, id, fun _ => ⟨rfl, Nat.le_refl _⟩, id, id, fun _ _ => Nat.le_refl _, id⟩

theorem free_ahead (m : Mod) : Ahead m { m with blk := false } :=
  ⟨rfl, fun _ => rfl, fun h => ⟨h, Nat.le_refl _⟩, id, id, fun _ _ => Nat.le_refl _, id⟩

/-- All groups of a list only go forward. -/
def Keeps (a b : List Mod) : Prop := ∀ (i : Nat) (m : Mod), a[i]? = some m → ∃ m', b[i]? = some m' ∧ Ahead m m'

theorem Keeps.refl (a : List Mod) : Keeps a a := fun _ m h => ⟨m, h, Ahead.refl m⟩

theorem keeps_set {a : List Mod} {i : Nat} {m m' : Mod} (h : a[i]? = some m) (hm : Ahead m m') : Keeps a (a.set i m') := by
  intro j x hx
  by_cases hij : i = j
  · subst hij
    have : x = m := Option.some.inj (hx.symm.trans h)
    subst this
    exact ⟨m', set_self h, hm⟩
  · exact ⟨x, by rw [List.getElem?_set_ne hij]; exact hx, Ahead.refl x⟩

theorem keeps_free {n : Nat} {a b : List Mod} (h : freeMap n a = some b) : Keeps a b ∧ b.length = a.length := by
  unfold freeMap at h
  split at h
  · cases h
  · cases h
    refine ⟨fun i m hm => ?_, by simp⟩
    rw [List.getElem?_map, hm]
    refine ⟨_, rfl, ?_⟩
    dsimp only
    split
    · exact free_ahead m
    · exact Ahead.refl m

/-- A set that has been replaced: its groups are among the first `L`. -/
structure Past (M L : Nat) (st : St) : Prop where
  inv : Inv st
  old : M < st.fresh
  cur : st.cur ≠ some M
  load : st.load ≠ some M
  own : ∀ (i : Nat) (m : Mod), st.mods[i]? = some m → m.map = M → i < L

theorem keeps_own {M L : Nat} {a b : List Mod} (hk : Keeps a b) (hl : b.length = a.length) (h : ∀ (i : Nat) (m : Mod), a[i]? = some m → m.map = M → i < L) :
    ∀ (i : Nat) (m : Mod), b[i]? = some m → m.map = M → i < L := by
  intro i m hm hM
  have hlt : i < a.length := by rw [← hl]; exact (List.getElem?_eq_some_iff.mp hm).1
  have hz := List.getElem?_eq_getElem hlt
  obtain ⟨m', h1, h2⟩ := hk i _ hz
  have : m' = m := Option.some.inj (h1.symm.trans hm)
  subst this
  exact h i _ hz (h2.map.symm.trans hM)

theorem past_step {M L : Nat} {a b : St} {e : Ev} (hp : Past M L a) (hc : ¬ Accident a e) (hs : step a e = some b) :
    Past M L b ∧ Keeps a.mods b.mods ∧ a.mods.length ≤ b.mods.length := by
  obtain ⟨b', h1, hi⟩ := step_inv hp.inv hc
  have : b' = b := Option.some.inj (h1.symm.trans hs)
  subst this
  clear h1
  -- steps that change only the groups
  have easy : Keeps a.mods b'.mods → b'.mods.length = a.mods.length → b'.fresh = a.fresh → b'.cur = a.cur → b'.load = a.load →
      Past M L b' ∧ Keeps a.mods b'.mods ∧ a.mods.length ≤ b'.mods.length := by
    intro k l f c d
    exact ⟨⟨hi, by rw [f]; exact hp.old, by rw [c]; exact hp.cur, by rw [d]; exact hp.load, keeps_own k l hp.own⟩, k, by omega⟩
  cases e with
  | work i l =>
    simp only [step] at hs
    split at hs
    · cases hs; exact easy (Keeps.refl _) rfl rfl rfl rfl
    · rename_i m hm
      obtain ⟨m', h1, rfl⟩ := Option.map_eq_some_iff.mp hs
      exact easy (keeps_set hm (work_ahead h1)) (by simp) rfl rfl rfl
  | sweep i =>
    simp only [step] at hs
    split at hs
    · cases hs; exact easy (Keeps.refl _) rfl rfl rfl rfl
    · rename_i m hm
      obtain ⟨m', h1, rfl⟩ := Option.map_eq_some_iff.mp hs
      exact easy (keeps_set hm (sweep_ahead h1)) (by simp) rfl rfl rfl
  | enter i =>
    simp only [step] at hs
    split at hs
    · cases hs; exact easy (Keeps.refl _) rfl rfl rfl rfl
    · split at hs <;> cases hs <;> exact easy (Keeps.refl _) rfl rfl rfl rfl
  | send k =>
    simp only [step] at hs
    split at hs
    · cases hs; exact easy (Keeps.refl _) rfl rfl rfl rfl
    · cases hs; exact easy (Keeps.refl _) rfl rfl rfl rfl
    · split at hs
      · cases hs
      · obtain ⟨m', h1, rfl⟩ := Option.map_eq_some_iff.mp hs
        exact easy (Keeps.refl _) rfl rfl rfl rfl
  | clean k =>
    simp only [step] at hs
    split at hs
    · cases hs; exact easy (Keeps.refl _) rfl rfl rfl rfl
    · unfold cleanStep at hs
      dsimp only at hs
      split at hs
      · rename_i m hm
        split at hs
        · cases hs
        · cases hs; exact easy (keeps_set hm (stop_ahead m)) (by simp) rfl rfl rfl
      · split at hs
        · cases hs; exact easy (Keeps.refl _) rfl rfl rfl rfl
        · split at hs
          · cases hs
          · rename_i ms hms
            cases hs
            exact easy (keeps_free hms).1 (keeps_free hms).2 rfl rfl rfl
  | loadBegin =>
    simp only [step] at hs
    split at hs
    · cases hs
      refine ⟨⟨hi, Nat.lt_succ_of_lt hp.old, hp.cur, fun h => ?_, hp.own⟩, Keeps.refl _, Nat.le_refl _⟩
      have := hp.old
      have : a.fresh = M := Option.some.inj h
      omega
    · cases hs; exact easy (Keeps.refl _) rfl rfl rfl rfl
  | loadStart k =>
    simp only [step] at hs
    split at hs
    · cases hs; exact easy (Keeps.refl _) rfl rfl rfl rfl
    · rename_i n hn
      cases hs
      refine ⟨⟨hi, hp.old, hp.cur, hp.load, ?_⟩, ?_, by simp⟩
      · intro i m hm hM
        have hm : (a.mods ++ [Mod.new k n])[i]? = some m := hm
        rw [List.getElem?_append] at hm
        split at hm
        · exact hp.own i m hm hM
        · have := List.mem_of_getElem? hm
          simp only [List.mem_singleton] at this
          subst this
          have hnew : (Mod.new k n).map = n := by cases k <;> rfl
          rw [hnew] at hM
          exact absurd (hM ▸ hn) hp.load
      · intro i m hm
        refine ⟨m, ?_, Ahead.refl m⟩
        show (a.mods ++ [Mod.new k n])[i]? = some m
        rw [List.getElem?_append_left (List.getElem?_eq_some_iff.mp hm).1]; exact hm
  | loadFail =>
    simp only [step] at hs
    split at hs
    · cases hs; exact easy (Keeps.refl _) rfl rfl rfl rfl
    · obtain ⟨ms, h1, rfl⟩ := Option.map_eq_some_iff.mp hs
      have hk := keeps_free h1
      exact ⟨⟨hi, hp.old, hp.cur, by simp, keeps_own hk.1 hk.2 hp.own⟩, hk.1, by rw [← hk.2]; exact Nat.le_refl _⟩
  | loadSwap =>
    simp only [step] at hs
    split at hs
    · cases hs; exact easy (Keeps.refl _) rfl rfl rfl rfl
    · rename_i n hn
      split at hs
      · cases hs
        refine ⟨⟨hi, hp.old, ?_, by simp, hp.own⟩, Keeps.refl _, Nat.le_refl _⟩
        have := hp.load
        rw [hn] at this
        exact this
      · cases hs; exact easy (Keeps.refl _) rfl rfl rfl rfl

/-- A cleaner does not change but by its own steps. -/
theorem cleaner_stays {a b : St} {e : Ev} {c : Cleaner} (hc : c ∈ a.cleaners) (hn : ∀ k, e = .clean k → a.cleaners[k]? ≠ some c) (hs : step a e = some b) :
    c ∈ b.cleaners := by
  cases e with
  | work i l =>
    simp only [step] at hs
    split at hs
    · cases hs; exact hc
    · obtain ⟨m', h1, rfl⟩ := Option.map_eq_some_iff.mp hs
      exact hc
  | sweep i =>
    simp only [step] at hs
    split at hs
    · cases hs; exact hc
    · obtain ⟨m', h1, rfl⟩ := Option.map_eq_some_iff.mp hs
      exact hc
  | enter i =>
    simp only [step] at hs
    split at hs
    · cases hs; exact hc
    · split at hs <;> cases hs <;> exact hc
  | send k =>
    simp only [step] at hs
    split at hs
    · cases hs; exact hc
    · cases hs; exact hc
    · split at hs
      · cases hs
      · obtain ⟨m', h1, rfl⟩ := Option.map_eq_some_iff.mp hs
        exact hc
  | clean k =>
    have hk := hn k rfl
    obtain ⟨q, hql, hqe⟩ := List.getElem_of_mem hc
    have hq : a.cleaners[q]? = some c := by rw [List.getElem?_eq_getElem hql, hqe]
    have hkq : k ≠ q := by rintro rfl; exact hk hq
    have hset : ∀ d, c ∈ a.cleaners.set k d := fun d =>
      List.mem_of_getElem? (i := q) (by rw [List.getElem?_set_ne hkq]; exact hq)
    simp only [step] at hs
    split at hs
    · cases hs; exact hc
    · unfold cleanStep at hs
      dsimp only at hs
      split at hs
      · split at hs
        · cases hs
        · cases hs; exact hset _
      · split at hs
        · cases hs; exact hset _
        · split at hs
          · cases hs
          · cases hs
            exact List.mem_eraseIdx_iff_getElem?.mpr ⟨q, fun h => hkq h.symm, hq⟩
  | loadBegin =>
    simp only [step] at hs
    split at hs <;> cases hs <;> exact hc
  | loadStart k =>
    simp only [step] at hs
    split at hs <;> cases hs <;> exact hc
  | loadFail =>
    simp only [step] at hs
    split at hs
    · cases hs; exact hc
    · obtain ⟨ms, h1, rfl⟩ := Option.map_eq_some_iff.mp hs
      exact hc
  | loadSwap =>
    simp only [step] at hs
    split at hs
    · cases hs; exact hc
    · split at hs
      · cases hs
        dsimp only
        split
        · exact hc
        · exact List.mem_append.mpr (.inl hc)
      · cases hs; exact hc

/-- What the step of a cleaner does. -/
theorem clean_does {a b : St} {k : Nat} {c : Cleaner} (hk : a.cleaners[k]? = some c) (hs : step a (.clean k) = some b) :
    (∃ p m, c.pos ≤ p ∧ a.mods[p]? = some m ∧ m.map = c.map ∧ (∀ (j : Nat) (x : Mod), c.pos ≤ j → j < p → a.mods[j]? = some x → x.map ≠ c.map)
      ∧ b.mods = a.mods.set p { m with isServer := false } ∧ (⟨c.map, p + 1, c.inUse || m.work || m.sweep⟩ : Cleaner) ∈ b.cleaners)
    ∨ ((∀ (j : Nat) (x : Mod), c.pos ≤ j → a.mods[j]? = some x → x.map ≠ c.map) ∧ c.inUse = true ∧ b.mods = a.mods ∧ (⟨c.map, 0, false⟩ : Cleaner) ∈ b.cleaners)
    ∨ Freed c.map b := by
  have hkl := (List.getElem?_eq_some_iff.mp hk).1
  simp only [step, hk] at hs
  unfold cleanStep at hs
  dsimp only at hs
  split at hs
  · rename_i m hm
    split at hs
    · cases hs
    · cases hs
      exact .inl ⟨_, m, nextOf_ge _ _ _, hm, nextOf_own hm, fun j x h1 h2 h3 => nextOf_skip h1 h2 h3, rfl, List.mem_set hkl _⟩
  · rename_i hm
    have hlen : a.mods.length ≤ nextOf a.mods c.map c.pos := by simpa using hm
    split at hs
    · rename_i hu
      cases hs
      refine .inr (.inl ⟨fun j x h1 hx => ?_, hu, rfl, List.mem_set hkl _⟩)
      have := (List.getElem?_eq_some_iff.mp hx).1
      exact nextOf_skip h1 (by omega) hx
    · split at hs
      · cases hs
      · rename_i ms hms
        cases hs
        refine .inr (.inr ?_)
        unfold freeMap at hms
        split at hms
        · cases hms
        · cases hms
          intro i m hm' he
          have hm' : (a.mods.map (fun m => if m.map = c.map then { m with blk := false } else m))[i]? = some m := hm'
          rw [List.getElem?_map] at hm'
          obtain ⟨x, hx, rfl⟩ := Option.map_eq_some_iff.mp hm'
          split
          · rfl
          · rename_i hne
            rw [if_neg hne] at he
            exact absurd he hne

section
variable {σ : Nat → Ev} {s : Nat → St} (hf : Fair σ s) {M L : Nat}
include hf

theorem fair_inv (n : Nat) : Inv (s n) := by
  induction n with
  | zero => rw [hf.first]; exact inv_start
  | succ n ih =>
    obtain ⟨b, h1, h2⟩ := step_inv ih (hf.calm n)
    rw [hf.next n] at h1
    cases h1
    exact h2

theorem past_later {n : Nat} (h : Past M L (s n)) : ∀ n', n ≤ n' → Past M L (s n') := by
  intro n' hn
  induction hn with
  | refl => exact h
  | step _ ih => exact (past_step ih (hf.calm _) (hf.next _)).1

theorem ahead_later {n : Nat} (h : Past M L (s n)) : ∀ n', n ≤ n' → ∀ (i : Nat) (m : Mod), (s n).mods[i]? = some m → ∃ m', (s n').mods[i]? = some m' ∧ Ahead m m' := by
  intro n' hn
  induction hn with
  | refl => exact fun _ m hm => ⟨m, hm, Ahead.refl m⟩
  | @step q hq ih =>
    intro i m hm
    obtain ⟨x, hx, h1⟩ := ih i m hm
    obtain ⟨y, hy, h2⟩ := (past_step (past_later hf h q hq) (hf.calm _) (hf.next _)).2.1 i x hx
    exact ⟨y, hy, h1.trans h2⟩

theorem back_later {n : Nat} (h : Past M L (s n)) (hL : L ≤ (s n).mods.length) {n' : Nat} (hn : n ≤ n') {i : Nat} {m' : Mod} (hm : (s n').mods[i]? = some m') (hM : m'.map = M) :
    ∃ m, (s n).mods[i]? = some m ∧ m.map = M ∧ Ahead m m' := by
  have hlt : i < (s n).mods.length := Nat.lt_of_lt_of_le ((past_later hf h n' hn).own i m' hm hM) hL
  have hz := List.getElem?_eq_getElem hlt
  obtain ⟨x, hx, h1⟩ := ahead_later hf h n' hn i _ hz
  have : x = m' := Option.some.inj (hx.symm.trans hm)
  subst this
  exact ⟨_, hz, h1.map.symm.trans hM, h1⟩

theorem len_later {n : Nat} (h : Past M L (s n)) {n' : Nat} (hn : n ≤ n') : (s n).mods.length ≤ (s n').mods.length := by
  induction hn with
  | refl => exact Nat.le_refl _
  | @step q hq ih => exact Nat.le_trans ih (past_step (past_later hf h q hq) (hf.calm _) (hf.next _)).2.2

/-- The worker of a stopped group ends. -/
theorem fair_worker {i : Nat} : ∀ (r n : Nat) (m : Mod), m.wk.rank ≤ r → Past M L (s n) → (s n).mods[i]? = some m → m.isServer = false →
    ∃ n' m', n ≤ n' ∧ (s n').mods[i]? = some m' ∧ m'.isServer = false ∧ m'.wk = .gone := by
  intro r
  induction r with
  | zero =>
    intro n m hr _ hm hs
    refine ⟨n, m, Nat.le_refl _, hm, hs, ?_⟩
    cases hw : m.wk <;> rw [hw] at hr <;> simp [Work.rank] at hr
  | succ r ih =>
    intro n m hr hp hm hs
    obtain ⟨n1, hn1, l, hl⟩ := hf.work n i (List.getElem?_eq_some_iff.mp hm).1
    obtain ⟨m1, hm1, ha⟩ := ahead_later hf hp n1 hn1 i m hm
    obtain ⟨hs1, hr1⟩ := ha.srv hs
    by_cases hg : m1.wk = .gone
    · exact ⟨n1, m1, hn1, hm1, hs1, hg⟩
    · have hstep := hf.next n1
      rw [hl] at hstep
      simp only [step, hm1] at hstep
      obtain ⟨m2, h2, h3⟩ := Option.map_eq_some_iff.mp hstep
      have hless := work_less hs1 hg h2
      have hm2 : (s (n1 + 1)).mods[i]? = some m2 := by rw [← h3]; exact set_self hm1
      obtain ⟨n', m', a, b⟩ := ih (n1 + 1) m2 (by omega) (past_later hf hp _ (by omega)) hm2 ((work_ahead h2).srv hs1).1
      exact ⟨n', m', by omega, b⟩

/-- The sweeper of a stopped group whose worker is gone ends. -/
theorem fair_sweeper {i : Nat} : ∀ (r n : Nat) (m : Mod), m.sw.rank ≤ r → Past M L (s n) → (s n).mods[i]? = some m → m.isServer = false → m.work = false →
    ∃ n' m', n ≤ n' ∧ (s n').mods[i]? = some m' ∧ m'.sw = .gone := by
  intro r
  induction r with
  | zero =>
    intro n m hr _ hm _ _
    refine ⟨n, m, Nat.le_refl _, hm, ?_⟩
    cases hw : m.sw <;> rw [hw] at hr <;> simp [Sweep.rank] at hr
  | succ r ih =>
    intro n m hr hp hm hs hw
    obtain ⟨n1, hn1, hl⟩ := hf.sweep n i (List.getElem?_eq_some_iff.mp hm).1
    obtain ⟨m1, hm1, ha⟩ := ahead_later hf hp n1 hn1 i m hm
    have hs1 := (ha.srv hs).1
    have hr1 := ha.swr hs hw
    by_cases hg : m1.sw = .gone
    · exact ⟨n1, m1, hn1, hm1, hg⟩
    · have hstep := hf.next n1
      rw [hl] at hstep
      simp only [step, hm1] at hstep
      obtain ⟨m2, h2, h3⟩ := Option.map_eq_some_iff.mp hstep
      obtain ⟨hless, q1, q2, _⟩ := sweep_rank hs1 (ha.work hw) hg h2
      have hm2 : (s (n1 + 1)).mods[i]? = some m2 := by rw [← h3]; exact set_self hm1
      obtain ⟨n', m', a, b⟩ := ih (n1 + 1) m2 (by omega) (past_later hf hp _ (by omega)) hm2 q1 q2
      exact ⟨n', m', by omega, b⟩

/-- When all groups of the set are stopped, the threads of all of them end. -/
theorem fair_gone {n : Nat} (hp : Past M L (s n)) (hL : L ≤ (s n).mods.length)
    (hst : ∀ (i : Nat) (m : Mod), (s n).mods[i]? = some m → m.map = M → m.isServer = false) : ∀ q,
    ∃ n', n ≤ n' ∧ ∀ (i : Nat) (m : Mod), i < q → (s n').mods[i]? = some m → m.map = M → m.wk = .gone ∧ m.sw = .gone := by
  intro q
  induction q with
  | zero => exact ⟨n, Nat.le_refl _, fun i _ h => absurd h (Nat.not_lt_zero i)⟩
  | succ q ih =>
    obtain ⟨n1, hn1, hg⟩ := ih
    have hp1 := past_later hf hp n1 hn1
    -- what is gone remains so
    have hstay : ∀ n2, n1 ≤ n2 → ∀ (i : Nat) (m : Mod), i < q → (s n2).mods[i]? = some m → m.map = M → m.wk = .gone ∧ m.sw = .gone := by
      intro n2 hn2 i m hi hm hM
      obtain ⟨x, hx, hxM, ha⟩ := back_later hf hp1 (Nat.le_trans hL (len_later hf hp hn1)) hn2 hm hM
      obtain ⟨a, b⟩ := hg i x hi hx hxM
      exact ⟨ha.wk a, ha.sw b⟩
    by_cases hq : ∃ m, (s n1).mods[q]? = some m ∧ m.map = M
    · obtain ⟨m, hm, hM⟩ := hq
      obtain ⟨x, hx, hxM, ha⟩ := back_later hf hp hL hn1 hm hM
      obtain ⟨n2, m2, hn2, hm2, hs2, hw2⟩ := fair_worker hf _ n1 m (Nat.le_refl _) hp1 hm (ha.srv (hst q x hx hxM)).1
      have hp2 := past_later hf hp1 n2 hn2
      obtain ⟨h1, _⟩ := gone_handles (hp2.inv.good q m2 hm2) hw2
      obtain ⟨n3, m3, hn3, hm3, hs3⟩ := fair_sweeper hf _ n2 m2 (Nat.le_refl _) hp2 hm2 hs2 h1
      refine ⟨n3, by omega, ?_⟩
      intro i y hi hy hyM
      by_cases hiq : i = q
      · subst hiq
        obtain ⟨z, hz, haz⟩ := ahead_later hf hp2 n3 hn3 i m2 hm2
        have e1 : z = y := Option.some.inj (hz.symm.trans hy)
        have e2 : m3 = y := Option.some.inj (hm3.symm.trans hy)
        subst e1; subst e2
        exact ⟨haz.wk hw2, hs3⟩
      · exact hstay n3 (by omega) i y (by omega) hy hyM
    · refine ⟨n1, hn1, ?_⟩
      intro i y hi hy hyM
      by_cases hiq : i = q
      · subst hiq; exact absurd ⟨y, hy, hyM⟩ hq
      · exact hg i y (by omega) hy hyM

/-- A cleaner comes to its next step as it is. -/
theorem fair_clean {n : Nat} {c : Cleaner} (hc : c ∈ (s n).cleaners) : ∃ n' k, n ≤ n' ∧ σ n' = .clean k ∧ (s n').cleaners[k]? = some c := by
  obtain ⟨n1, hn1, k, d, h1, h2, h3⟩ := hf.clean n c hc
  apply Classical.byContradiction
  intro hno
  have hstay : ∀ n', n ≤ n' → c ∈ (s n').cleaners := by
    intro n' hn
    induction hn with
    | refl => exact hc
    | @step q hq ih =>
      exact cleaner_stays ih (fun k hk hg => hno ⟨q, k, hq, hk, hg⟩) (hf.next q)
  have hc1 := hstay n1 hn1
  obtain ⟨q, hql, hqe⟩ := List.getElem_of_mem hc1
  have hi := fair_inv hf n1
  obtain ⟨hkl, hke⟩ := List.getElem?_eq_some_iff.mp h2
  have : ((s n1).cleaners.map Cleaner.map)[q]'(by simpa using hql) = ((s n1).cleaners.map Cleaner.map)[k]'(by simpa using hkl) := by
    simp only [List.getElem_map, hqe, hke]
    exact h3.symm
  have hqk := (List.getElem_inj (i := q) (j := k) hi.cln).mp this
  subst hqk
  exact hno ⟨n1, q, hn1, h1, by rw [List.getElem?_eq_getElem hql, hqe]⟩

/-- A cleaner ends its round. -/
theorem fair_round : ∀ (d n : Nat) (c : Cleaner), L ≤ c.pos + d → Past M L (s n) → L ≤ (s n).mods.length → c ∈ (s n).cleaners → c.map = M →
    ∃ n', n ≤ n' ∧ (Freed M (s n') ∨ ((⟨M, 0, false⟩ : Cleaner) ∈ (s n').cleaners
      ∧ (∀ (i : Nat) (m : Mod), c.pos ≤ i → (s n').mods[i]? = some m → m.map = M → m.isServer = false)
      ∧ ¬ (c.inUse = false ∧ ∀ (i : Nat) (m : Mod), (s n).mods[i]? = some m → m.map = M → m.wk = .gone ∧ m.sw = .gone))) := by
  intro d
  induction d with
  | zero =>
    intro n c hd hp hL hc hM
    obtain ⟨n1, k, hn1, h1, h2⟩ := fair_clean hf hc
    have hp1 := past_later hf hp n1 hn1
    have hstep := hf.next n1
    rw [h1] at hstep
    rcases clean_does h2 hstep with ⟨p, m, q1, q2, q3, _⟩ | ⟨q1, q2, q3, q4⟩ | q
    · exfalso
      have := hp1.own p m q2 (q3.trans hM)
      omega
    · rw [hM] at q1 q4
      refine ⟨n1 + 1, by omega, .inr ⟨q4, ?_, fun h => by rw [q2] at h; cases h.1⟩⟩
      intro i m hi hm hmM
      have := hp1.own i m (by rw [← q3]; exact hm) hmM
      omega
    · rw [hM] at q
      exact ⟨n1 + 1, by omega, .inl q⟩
  | succ d ih =>
    intro n c hd hp hL hc hM
    obtain ⟨n1, k, hn1, h1, h2⟩ := fair_clean hf hc
    have hp1 := past_later hf hp n1 hn1
    have hL1 := Nat.le_trans hL (len_later hf hp hn1)
    have hstep := hf.next n1
    rw [h1] at hstep
    rcases clean_does h2 hstep with ⟨p, m, q1, q2, q3, q4, q5, q6⟩ | ⟨q1, q2, q3, q4⟩ | q
    · rw [hM] at q3 q4 q6
      have hp2 := past_later hf hp (n1 + 1) (by omega)
      have hL2 := Nat.le_trans hL (len_later hf hp (show n ≤ n1 + 1 by omega))
      obtain ⟨n', hn', hres⟩ := ih (n1 + 1) ⟨M, p + 1, c.inUse || m.work || m.sweep⟩ (by simp; omega) hp2 hL2 q6 rfl
      refine ⟨n', by omega, ?_⟩
      rcases hres with hres | ⟨r1, r2, r3⟩
      · exact .inl hres
      refine .inr ⟨r1, ?_, ?_⟩
      · intro i x hi hx hxM
        obtain ⟨y, hy, hyM, ha⟩ := back_later hf hp2 hL2 hn' hx hxM
        rcases Nat.lt_trichotomy i p with hip | hip | hip
        · exfalso
          rw [q5, List.getElem?_set_ne (by omega)] at hy
          exact q4 i y hi hip hy hyM
        · subst hip
          rw [q5, set_self q2] at hy
          cases hy
          exact (ha.srv rfl).1
        · exact r2 i x (by show p + 1 ≤ i; omega) hx hxM
      · rintro ⟨hu, hall⟩
        apply r3
        have hgone1 : ∀ (i : Nat) (x : Mod), (s n1).mods[i]? = some x → x.map = M → x.wk = .gone ∧ x.sw = .gone := by
          intro i x hx hxM
          obtain ⟨y, hy, hyM, ha⟩ := back_later hf hp hL hn1 hx hxM
          obtain ⟨g1, g2⟩ := hall i y hy hyM
          exact ⟨ha.wk g1, ha.sw g2⟩
        have hgm := hgone1 p m q2 q3
        obtain ⟨a1, a2⟩ := gone_handles (hp1.inv.good _ _ q2) hgm.1
        refine ⟨by simp [hu, a1, a2 hgm.2], ?_⟩
        intro i x hx hxM
        obtain ⟨y, hy, hyM, ha⟩ := back_later hf hp hL (show n ≤ n1 + 1 by omega) hx hxM
        obtain ⟨g1, g2⟩ := hall i y hy hyM
        exact ⟨ha.wk g1, ha.sw g2⟩
    · rw [hM] at q1 q4
      refine ⟨n1 + 1, by omega, .inr ⟨q4, ?_, fun h => by rw [q2] at h; cases h.1⟩⟩
      intro i m hi hm hmM
      rw [q3] at hm
      exact absurd hmM (q1 i m hi hm)
    · rw [hM] at q
      exact ⟨n1 + 1, by omega, .inl q⟩

/-- The replaced set is freed. -/
theorem fair_freed {n : Nat} {c : Cleaner} (hp : Past M L (s n)) (hL : L ≤ (s n).mods.length) (hc : c ∈ (s n).cleaners) (hM : c.map = M) :
    ∃ n', n ≤ n' ∧ Freed M (s n') := by
  -- the round it is in
  obtain ⟨n1, hn1, h | ⟨h1, _⟩⟩ := fair_round hf L n c (by omega) hp hL hc hM
  · exact ⟨n1, hn1, h⟩
  have hp1 := past_later hf hp n1 hn1
  have hL1 := Nat.le_trans hL (len_later hf hp hn1)
  -- a whole round
  obtain ⟨n2, hn2, h | ⟨h2, hst, _⟩⟩ := fair_round hf L n1 ⟨M, 0, false⟩ (by simp) hp1 hL1 h1 rfl
  · exact ⟨n2, by omega, h⟩
  have hp2 := past_later hf hp1 n2 hn2
  have hL2 := Nat.le_trans hL1 (len_later hf hp1 hn2)
  -- the threads end
  obtain ⟨n3, hn3, hg⟩ := fair_gone hf hp2 hL2 (fun i m => hst i m (Nat.zero_le _)) L
  have hp3 := past_later hf hp2 n3 hn3
  have hL3 := Nat.le_trans hL2 (len_later hf hp2 hn3)
  by_cases hex : ∃ c', c' ∈ (s n3).cleaners ∧ c'.map = M
  · obtain ⟨c', hc', hM'⟩ := hex
    obtain ⟨n4, hn4, h | ⟨h4, _⟩⟩ := fair_round hf L n3 c' (by omega) hp3 hL3 hc' hM'
    · exact ⟨n4, by omega, h⟩
    have hp4 := past_later hf hp3 n4 hn4
    have hL4 := Nat.le_trans hL3 (len_later hf hp3 hn4)
    obtain ⟨n5, hn5, h | ⟨_, _, h5⟩⟩ := fair_round hf L n4 ⟨M, 0, false⟩ (by simp) hp4 hL4 h4 rfl
    · exact ⟨n5, by omega, h⟩
    · exfalso
      apply h5
      refine ⟨rfl, fun i x hx hxM => ?_⟩
      obtain ⟨y, hy, hyM, ha⟩ := back_later hf hp3 hL3 hn4 hx hxM
      obtain ⟨g1, g2⟩ := hg i y (hp3.own i y hy hyM) hy hyM
      exact ⟨ha.wk g1, ha.sw g2⟩
  · refine ⟨n3, by omega, fun i m hm hmM => ?_⟩
    rcases hp3.inv.old i m hm (by
      rintro (h | h)
      · exact hp3.cur (by rw [h, hmM])
      · exact hp3.load (by rw [h, hmM])) with h | ⟨c', h1, h2⟩
    · exact h
    · exact absurd ⟨c', h1, h2.trans hmM⟩ hex

end

end Verif.Lifecycle
