import Verif.Lemmas.Lifecycle

/-! What holds of the whole program at every moment, and that it is kept. -/

namespace Verif.Lifecycle
open Spec

structure Inv (st : St) : Prop where
  good : ∀ (i : Nat) (m : Mod), st.mods[i]? = some m → Good (Used st m) m
  mapb : ∀ (i : Nat) (m : Mod), st.mods[i]? = some m → m.map < st.fresh
  curb : ∀ n, st.cur = some n → n < st.fresh
  loadb : ∀ n, st.load = some n → n < st.fresh
  diff : ∀ n, st.cur = some n → st.load ≠ some n
  send : ∀ p ∈ st.senders, ∃ m, st.mods[p.1]? = some m ∧ st.cur = some m.map ∧ (p.2 = .check ∨ p.2 = .addr → m.kind = .udp)
  cl : ∀ c ∈ st.cleaners, c.map < st.fresh ∧ st.cur ≠ some c.map ∧ st.load ≠ some c.map
  clb : ∀ c ∈ st.cleaners, ∀ (i : Nat) (m : Mod), st.mods[i]? = some m → m.map = c.map → m.blk = true
  clu : ∀ c ∈ st.cleaners, c.inUse = false → ∀ (i : Nat) (m : Mod), i < c.pos → st.mods[i]? = some m → m.map = c.map → m.wk = .gone ∧ m.sw = .gone
  cln : (st.cleaners.map Cleaner.map).Nodup
  old : ∀ (i : Nat) (m : Mod), st.mods[i]? = some m → ¬ Used st m → m.blk = false ∨ ∃ c ∈ st.cleaners, c.map = m.map

theorem inv_start : Inv start := by
  constructor <;> simp [start]

theorem set_get {α} {l : List α} {i j : Nat} {a b x : α} (h : l[i]? = some a) (hx : (l.set i b)[j]? = some x) :
    (i = j ∧ x = b) ∨ (i ≠ j ∧ l[j]? = some x) := by
  have hlt : i < l.length := (List.getElem?_eq_some_iff.mp h).1
  rw [List.getElem?_set] at hx
  by_cases hij : i = j
  · subst hij
    simp only [hlt, if_true] at hx
    exact .inl ⟨rfl, (Option.some.inj hx).symm⟩
  · rw [if_neg hij] at hx
    exact .inr ⟨hij, hx⟩

/-- A step of a thread of a group. -/
theorem inv_set {st : St} (hi : Inv st) {i : Nat} {m m' : Mod} (hm : st.mods[i]? = some m) (hg : Good (Used st m) m') (hs : Same m m') :
    Inv { st with mods := st.mods.set i m' } := by
  obtain ⟨hk, hmap, hblk, hgw, hgs⟩ := hs
  have hlt : i < st.mods.length := (List.getElem?_eq_some_iff.mp hm).1
  -- what was there before
  have back : ∀ (j : Nat) (x : Mod), (st.mods.set i m')[j]? = some x → ∃ y, st.mods[j]? = some y ∧ x.kind = y.kind ∧ x.map = y.map ∧ x.blk = y.blk
      ∧ (y.wk = .gone → x.wk = .gone) ∧ (y.sw = .gone → x.sw = .gone) := by
    intro j x hx
    rcases set_get hm hx with ⟨rfl, rfl⟩ | ⟨_, hx⟩
    · exact ⟨m, hm, hk, hmap, hblk, hgw, hgs⟩
    · exact ⟨x, hx, rfl, rfl, rfl, id, id⟩
  constructor
  · intro j x hx
    rcases set_get hm hx with ⟨rfl, rfl⟩ | ⟨_, hx⟩
    · have : Used { st with mods := st.mods.set i x } x = Used st m := by unfold Used; rw [hmap]
      rw [this]; exact hg
    · exact hi.good j x hx
  · intro j x hx
    obtain ⟨y, hy, _, h2, _⟩ := back j x hx
    rw [h2]; exact hi.mapb j y hy
  · exact hi.curb
  · exact hi.loadb
  · exact hi.diff
  · intro p hp
    obtain ⟨y, hy, hc, hu⟩ := hi.send p hp
    show ∃ z, (st.mods.set i m')[p.1]? = some z ∧ _
    by_cases hij : i = p.1
    · rw [← hij] at hy ⊢
      have : y = m := Option.some.inj (hy.symm.trans hm)
      subst this
      exact ⟨m', by simp [hlt], by rw [hmap]; exact hc, by rw [hk]; exact hu⟩
    · exact ⟨y, by rw [List.getElem?_set_ne hij]; exact hy, hc, hu⟩
  · exact hi.cl
  · intro c hc j x hx hxc
    obtain ⟨y, hy, _, h2, h3, _⟩ := back j x hx
    rw [h3]; exact hi.clb c hc j y hy (h2 ▸ hxc)
  · intro c hc hu j x hj hx hxc
    obtain ⟨y, hy, _, h2, _, h4, h5⟩ := back j x hx
    obtain ⟨a, b⟩ := hi.clu c hc hu j y hj hy (h2 ▸ hxc)
    exact ⟨h4 a, h5 b⟩
  · exact hi.cln
  · intro j x hx hnu
    obtain ⟨y, hy, _, h2, h3, _⟩ := back j x hx
    rw [h3, h2]
    apply hi.old j y hy
    intro hu
    apply hnu
    unfold Used at hu ⊢
    rw [h2]; exact hu

theorem freeMap_some {n : Nat} {ms : List Mod} (h : ∀ (i : Nat) (m : Mod), ms[i]? = some m → m.map = n → m.blk = true) :
    freeMap n ms = some (ms.map fun m => if m.map = n then { m with blk := false } else m) := by
  unfold freeMap
  rw [if_neg]
  simp only [List.any_eq_true, not_exists, not_and, Bool.and_eq_true, decide_eq_true_eq, Bool.not_eq_true']
  intro m hm hmn
  obtain ⟨i, hi, he⟩ := List.getElem_of_mem hm
  have := h i m (by rw [← he]; exact List.getElem?_eq_getElem hi) hmn
  simp [this]

theorem mem_cleaners_set {l : List Cleaner} {k : Nat} {c' x : Cleaner} (hx : x ∈ l.set k c') :
    x = c' ∨ x ∈ l := by
  rcases List.mem_or_eq_of_mem_set hx with h | h
  · exact .inr h
  · exact .inl h

theorem map_set_same {l : List Cleaner} {k : Nat} {c c' : Cleaner} (hk : l[k]? = some c) (h : c'.map = c.map) :
    (l.set k c').map Cleaner.map = l.map Cleaner.map := by
  rw [List.map_set]
  apply List.ext_getElem?
  intro j
  rw [List.getElem?_set]
  split
  · rename_i hj
    subst hj
    have hlt := (List.getElem?_eq_some_iff.mp hk).1
    simp only [List.length_map, hlt, if_true, List.getElem?_map, hk, Option.map_some, h]
  · rfl

/-- A cleaner goes on to the next group, or starts again. -/
theorem inv_cleaner {st : St} (hi : Inv st) {k : Nat} {c : Cleaner} (hk : st.cleaners[k]? = some c) (c' : Cleaner) (hm : c'.map = c.map)
    (hu : c'.inUse = false → ∀ (i : Nat) (m : Mod), i < c'.pos → st.mods[i]? = some m → m.map = c'.map → m.wk = .gone ∧ m.sw = .gone) :
    Inv { st with cleaners := st.cleaners.set k c' } := by
  have hc := List.mem_of_getElem? hk
  have hlt : k < st.cleaners.length := (List.getElem?_eq_some_iff.mp hk).1
  constructor
  · exact hi.good
  · exact hi.mapb
  · exact hi.curb
  · exact hi.loadb
  · exact hi.diff
  · exact hi.send
  · intro x hx
    rcases mem_cleaners_set hx with rfl | hx
    · rw [hm]; exact hi.cl c hc
    · exact hi.cl x hx
  · intro x hx
    rcases mem_cleaners_set hx with rfl | hx
    · rw [hm]; exact hi.clb c hc
    · exact hi.clb x hx
  · intro x hx
    rcases mem_cleaners_set hx with rfl | hx
    · exact hu
    · exact hi.clu x hx
  · show ((st.cleaners.set k c').map Cleaner.map).Nodup
    rw [map_set_same hk hm]; exact hi.cln
  · intro j x hx hnu
    rcases hi.old j x hx hnu with h | ⟨d, hd, he⟩
    · exact .inl h
    · right
      show ∃ e ∈ st.cleaners.set k c', e.map = x.map
      by_cases hdc : d.map = c.map
      · exact ⟨c', List.mem_set hlt c', by rw [hm, ← hdc]; exact he⟩
      · obtain ⟨q, hq, hqe⟩ := List.getElem_of_mem hd
        refine ⟨d, ?_, he⟩
        have hqk : k ≠ q := by
          rintro rfl
          apply hdc
          rw [List.getElem?_eq_getElem hlt] at hk
          rw [← hqe, Option.some.inj hk]
        have : (st.cleaners.set k c')[q]? = some d := by
          rw [List.getElem?_set_ne hqk, List.getElem?_eq_getElem hq, hqe]
        exact List.mem_of_getElem? this

theorem nextOf_ge (ms : List Mod) (map pos : Nat) : pos ≤ nextOf ms map pos := Nat.le_add_right _ _

/-- The groups that are passed over are of other sets. -/
theorem nextOf_skip {ms : List Mod} {map pos j : Nat} {x : Mod} (h1 : pos ≤ j) (h2 : j < nextOf ms map pos) (hx : ms[j]? = some x) : x.map ≠ map := by
  unfold nextOf at h2
  have h3 : j - pos < (ms.drop pos).findIdx (fun m => m.map = map) := by omega
  have := List.not_of_lt_findIdx h3
  rw [List.getElem_drop] at this
  have hj : ms[pos + (j - pos)]? = some x := by rw [show pos + (j - pos) = j by omega]; exact hx
  rw [(List.getElem?_eq_some_iff.mp hj).2] at this
  simpa using this

/-- The group that is looked at is of the set. -/
theorem nextOf_own {ms : List Mod} {map pos : Nat} {x : Mod} (hx : ms[nextOf ms map pos]? = some x) : x.map = map := by
  unfold nextOf at hx
  have hlt := (List.getElem?_eq_some_iff.mp hx).1
  have h3 : (ms.drop pos).findIdx (fun m => m.map = map) < (ms.drop pos).length := by
    rw [List.length_drop]; omega
  have := List.findIdx_getElem (w := h3)
  rw [List.getElem_drop, (List.getElem?_eq_some_iff.mp hx).2] at this
  simpa using this

theorem cleanStep_inv {st : St} (hi : Inv st) {k : Nat} {c : Cleaner} (hk : st.cleaners[k]? = some c) :
    ∃ st', cleanStep st k c = some st' ∧ Inv st' := by
  have hc := List.mem_of_getElem? hk
  obtain ⟨hcf, hcc, hcl⟩ := hi.cl c hc
  unfold cleanStep
  dsimp only
  have hge := nextOf_ge st.mods c.map c.pos
  cases hm : st.mods[nextOf st.mods c.map c.pos]? with
  | some m =>
    dsimp only
    have hmm := nextOf_own hm
    have hb := hi.clb c hc _ _ hm hmm
    have hnu : ¬ Used st m := by
      unfold Used
      rw [hmm]
      rintro (h | h)
      · exact hcc h
      · exact hcl h
    rw [if_neg (by simp [hb])]
    refine ⟨_, rfl, ?_⟩
    have hg := hi.good _ _ hm
    have h1 : Inv { st with mods := st.mods.set (nextOf st.mods c.map c.pos) { m with isServer := false } } :=
      inv_set hi hm (stop_good hg hnu) ⟨rfl, rfl, rfl, id, id⟩
    refine inv_cleaner h1 (c := c) hk ⟨c.map, nextOf st.mods c.map c.pos + 1, c.inUse || m.work || m.sweep⟩ rfl ?_
    intro hu j x hj hx hxc
    simp only [Bool.or_eq_false_iff] at hu
    have hx : (st.mods.set (nextOf st.mods c.map c.pos) { m with isServer := false })[j]? = some x := hx
    rcases set_get hm hx with ⟨rfl, rfl⟩ | ⟨hne, hx⟩
    · exact idle_gone (m := m) hg hu.1.2 hu.2
    · have hj : j < nextOf st.mods c.map c.pos + 1 := hj
      rcases Nat.lt_or_ge j c.pos with hlt | hle
      · exact hi.clu c hc hu.1.1 j x hlt hx hxc
      · exact absurd hxc (nextOf_skip (map := c.map) hle (by omega) hx)
  | none =>
    dsimp only
    cases hu : c.inUse with
    | true =>
      simp only [if_true]
      exact ⟨_, rfl, inv_cleaner hi hk _ rfl (fun _ j x hj => absurd hj (Nat.not_lt_zero j))⟩
    | false =>
      simp only [Bool.false_eq_true, if_false]
      have hfree := freeMap_some (n := c.map) (ms := st.mods) (fun i m => hi.clb c hc i m)
      rw [hfree]
      refine ⟨_, rfl, ?_⟩
      have hlen : st.mods.length ≤ nextOf st.mods c.map c.pos := by simpa using hm
      have hkl : k < st.cleaners.length := (List.getElem?_eq_some_iff.mp hk).1
      have hck : st.cleaners[k] = c := (List.getElem?_eq_some_iff.mp hk).2
      have hgone : ∀ (j : Nat) (m : Mod), st.mods[j]? = some m → m.map = c.map → m.wk = .gone ∧ m.sw = .gone := by
        intro j m hjm hmc
        have : j < st.mods.length := (List.getElem?_eq_some_iff.mp hjm).1
        rcases Nat.lt_or_ge j c.pos with hlt | hle
        · exact hi.clu c hc hu j m hlt hjm hmc
        · exact absurd hmc (nextOf_skip hle (by omega) hjm)
      -- the others are for other sets
      have hother : ∀ x ∈ st.cleaners.eraseIdx k, x ∈ st.cleaners ∧ x.map ≠ c.map := by
        intro x hx
        obtain ⟨q, hqk, hq⟩ := List.mem_eraseIdx_iff_getElem?.mp hx
        have hql : q < st.cleaners.length := (List.getElem?_eq_some_iff.mp hq).1
        refine ⟨List.mem_of_getElem? hq, fun he => hqk ?_⟩
        have h1 : (st.cleaners.map Cleaner.map)[q]'(by simpa using hql) = (st.cleaners.map Cleaner.map)[k]'(by simpa using hkl) := by
          simp only [List.getElem_map, hck]
          rw [← he, (List.getElem?_eq_some_iff.mp hq).2]
        exact (List.getElem_inj (i := q) (j := k) hi.cln).mp h1
      have back : ∀ (j : Nat) (x : Mod), (st.mods.map fun m => if m.map = c.map then { m with blk := false } else m)[j]? = some x →
          ∃ y, st.mods[j]? = some y ∧ ((y.map = c.map ∧ x = { y with blk := false }) ∨ (y.map ≠ c.map ∧ x = y)) := by
        intro j x hx
        rw [List.getElem?_map] at hx
        cases hy : st.mods[j]? with
        | none => rw [hy] at hx; cases hx
        | some y =>
          rw [hy] at hx
          simp only [Option.map_some] at hx
          refine ⟨y, rfl, ?_⟩
          by_cases hyc : y.map = c.map
          · rw [if_pos hyc] at hx
            exact .inl ⟨hyc, (Option.some.inj hx).symm⟩
          · rw [if_neg hyc] at hx
            exact .inr ⟨hyc, (Option.some.inj hx).symm⟩
      constructor
      · intro j x hx
        obtain ⟨y, hy, ⟨hyc, rfl⟩ | ⟨hyc, rfl⟩⟩ := back j x hx
        · obtain ⟨a, b⟩ := hgone j y hy hyc
          refine free_good (hi.good j y hy) ?_ a b
          unfold Used
          rw [hyc]
          rintro (h | h)
          · exact hcc h
          · exact hcl h
        · exact hi.good j x hy
      · intro j x hx
        obtain ⟨y, hy, ⟨hyc, rfl⟩ | ⟨hyc, rfl⟩⟩ := back j x hx
        · exact hi.mapb j y hy
        · exact hi.mapb j x hy
      · exact hi.curb
      · exact hi.loadb
      · exact hi.diff
      · intro p hp
        obtain ⟨y, hy, hcu, hud⟩ := hi.send p hp
        refine ⟨y, ?_, hcu, hud⟩
        show (st.mods.map fun m => if m.map = c.map then { m with blk := false } else m)[p.1]? = some y
        rw [List.getElem?_map, hy, Option.map_some, if_neg]
        intro hyc
        rw [hyc] at hcu
        exact hcc hcu
      · intro x hx
        exact hi.cl x (hother x hx).1
      · intro x hx j z hz hzx
        obtain ⟨hx1, hx2⟩ := hother x hx
        obtain ⟨y, hy, ⟨hyc, rfl⟩ | ⟨hyc, rfl⟩⟩ := back j z hz
        · exact absurd (hzx.symm.trans hyc) hx2
        · exact hi.clb x hx1 j z hy hzx
      · intro x hx hxu j z hj hz hzx
        obtain ⟨hx1, hx2⟩ := hother x hx
        obtain ⟨y, hy, ⟨hyc, rfl⟩ | ⟨hyc, rfl⟩⟩ := back j z hz
        · exact absurd (hzx.symm.trans hyc) hx2
        · exact hi.clu x hx1 hxu j z hj hy hzx
      · exact (List.Sublist.map _ (List.eraseIdx_sublist _ k)).nodup hi.cln
      · intro j z hz hnu
        obtain ⟨y, hy, ⟨hyc, rfl⟩ | ⟨hyc, rfl⟩⟩ := back j z hz
        · exact .inl rfl
        · rcases hi.old j z hy hnu with h | ⟨d, hd, he⟩
          · exact .inl h
          · right
            refine ⟨d, ?_, he⟩
            obtain ⟨q, hq, hqe⟩ := List.getElem_of_mem hd
            refine List.mem_eraseIdx_iff_getElem?.mpr ⟨q, ?_, by rw [List.getElem?_eq_getElem hq, hqe]⟩
            rintro rfl
            apply hyc
            rw [← he, ← hqe, hck]

theorem step_inv {st : St} (hi : Inv st) {e : Ev} (ha : ¬ Accident st e) : ∃ st', step st e = some st' ∧ Inv st' := by
  cases e with
  | work i l =>
    simp only [step]
    cases hm : st.mods[i]? with
    | none => exact ⟨st, rfl, hi⟩
    | some m =>
      obtain ⟨m', h1, h2, h3⟩ := work_good l (hi.good i m hm) (by
        rintro ⟨rfl, h⟩
        exact ha ⟨m, hm, h⟩)
      exact ⟨_, by simp only [h1, Option.map_some], inv_set hi hm h2 h3⟩
  | sweep i =>
    simp only [step]
    cases hm : st.mods[i]? with
    | none => exact ⟨st, rfl, hi⟩
    | some m =>
      obtain ⟨m', h1, h2, h3⟩ := sweep_good (hi.good i m hm)
      exact ⟨_, by simp only [h1, Option.map_some], inv_set hi hm h2 h3⟩
  | enter i =>
    simp only [step]
    cases hm : st.mods[i]? with
    | none => exact ⟨st, rfl, hi⟩
    | some m =>
      dsimp only
      by_cases hc : some m.map = st.cur
      · rw [if_pos hc]
        refine ⟨_, rfl, ?_⟩
        refine ⟨hi.good, hi.mapb, hi.curb, hi.loadb, hi.diff, ?_, hi.cl, hi.clb, hi.clu, hi.cln, hi.old⟩
        intro p hp
        rcases List.mem_append.mp hp with hp | hp
        · exact hi.send p hp
        · simp only [List.mem_singleton] at hp
          subst hp
          exact ⟨m, hm, hc.symm, by simp⟩
      · rw [if_neg hc]; exact ⟨st, rfl, hi⟩
  | send k =>
    simp only [step]
    cases hs : st.senders[k]? with
    | none => exact ⟨st, rfl, hi⟩
    | some p =>
      obtain ⟨i, s⟩ := p
      obtain ⟨m, hm, hcur, hud⟩ := hi.send _ (List.mem_of_getElem? hs)
      dsimp only at hm hcur hud
      by_cases hsl : s = .leave
      · subst hsl
        refine ⟨_, rfl, ?_⟩
        refine ⟨hi.good, hi.mapb, hi.curb, hi.loadb, hi.diff, ?_, hi.cl, hi.clb, hi.clu, hi.cln, hi.old⟩
        intro p hp
        exact hi.send p (List.mem_of_mem_eraseIdx hp)
      · obtain ⟨s', h1, h2⟩ := send_good (s := s) (hi.good i m hm) (.inl hcur) hud
        refine ⟨{ st with senders := st.senders.set k (i, s') }, ?_, ?_⟩
        · cases s with
          | leave => exact absurd rfl hsl
          | _ => simp only [hm, h1, Option.map_some]
        · refine ⟨hi.good, hi.mapb, hi.curb, hi.loadb, hi.diff, ?_, hi.cl, hi.clb, hi.clu, hi.cln, hi.old⟩
          intro p hp
          rcases List.mem_or_eq_of_mem_set hp with hp | hp
          · exact hi.send p hp
          · subst hp
            exact ⟨m, hm, hcur, h2⟩
  | clean k =>
    simp only [step]
    cases hk : st.cleaners[k]? with
    | none => exact ⟨st, rfl, hi⟩
    | some c => exact cleanStep_inv hi hk
  | loadBegin =>
    simp only [step]
    by_cases hl : st.load = none
    · rw [if_pos hl]
      refine ⟨_, rfl, ?_⟩
      have hu : ∀ m, m.map < st.fresh → (Used { st with load := some st.fresh, fresh := st.fresh + 1 } m ↔ Used st m) := by
        intro m hm
        unfold Used
        rw [hl]
        simp only [Option.some.injEq, reduceCtorEq, or_false]
        constructor
        · rintro (h | h)
          · exact h
          · omega
        · exact .inl
      constructor
      · intro i m hm
        have := hu m (hi.mapb i m hm)
        exact good_mono m (hi.good i m hm) (fun hk => by
          have hg := hi.good i m hm
          rw [this]
          unfold Good at hg
          rw [hk] at hg
          exact hg.2.2.2.2.2.2.2.2) this.mp
      · intro i m hm; exact Nat.lt_succ_of_lt (hi.mapb i m hm)
      · intro n hn; exact Nat.lt_succ_of_lt (hi.curb n hn)
      · intro n hn
        have : st.fresh = n := Option.some.inj hn
        show n < st.fresh + 1
        omega
      · intro n hn h
        have := hi.curb n hn
        have : st.fresh = n := Option.some.inj h
        omega
      · exact hi.send
      · intro c hc
        obtain ⟨a, b, _⟩ := hi.cl c hc
        refine ⟨Nat.lt_succ_of_lt a, b, fun h => ?_⟩
        have : st.fresh = c.map := Option.some.inj h
        omega
      · exact hi.clb
      · exact hi.clu
      · exact hi.cln
      · intro i m hm hnu
        exact hi.old i m hm (fun h => hnu ((hu m (hi.mapb i m hm)).mpr h))
    · rw [if_neg hl]; exact ⟨st, rfl, hi⟩
  | loadStart k =>
    simp only [step]
    cases hl : st.load with
    | none => exact ⟨st, rfl, hi⟩
    | some n =>
      refine ⟨{ st with mods := st.mods ++ [Mod.new k n] }, by simp only [hl], ?_⟩
      have hnew : (Mod.new k n).map = n := by cases k <;> rfl
      have back : ∀ (j : Nat) (x : Mod), (st.mods ++ [Mod.new k n])[j]? = some x → st.mods[j]? = some x ∨ x = Mod.new k n := by
        intro j x hx
        rw [List.getElem?_append] at hx
        split at hx
        · exact .inl hx
        · right
          have := List.mem_of_getElem? hx
          simpa using this
      constructor
      · intro j x hx
        rcases back j x hx with hx | rfl
        · exact hi.good j x hx
        · exact good_new (.inr (by rw [hnew]; exact hl)) k n
      · intro j x hx
        rcases back j x hx with hx | rfl
        · exact hi.mapb j x hx
        · rw [hnew]; exact hi.loadb n hl
      · exact hi.curb
      · exact hi.loadb
      · exact hi.diff
      · intro p hp
        obtain ⟨m, hm, h⟩ := hi.send p hp
        exact ⟨m, by
          show (st.mods ++ [Mod.new k n])[p.1]? = some m
          rw [List.getElem?_append_left (List.getElem?_eq_some_iff.mp hm).1]; exact hm, h⟩
      · exact hi.cl
      · intro c hc j x hx hxc
        rcases back j x hx with hx | rfl
        · exact hi.clb c hc j x hx hxc
        · rw [hnew] at hxc
          exact absurd (hxc ▸ hl) (hi.cl c hc).2.2
      · intro c hc hu j x hj hx hxc
        rcases back j x hx with hx | rfl
        · exact hi.clu c hc hu j x hj hx hxc
        · rw [hnew] at hxc
          exact absurd (hxc ▸ hl) (hi.cl c hc).2.2
      · exact hi.cln
      · intro j x hx hnu
        rcases back j x hx with hx | rfl
        · exact hi.old j x hx hnu
        · exact absurd (.inr (by rw [hnew]; exact hl)) hnu
  | loadFail =>
    simp only [step]
    cases hl : st.load with
    | none => exact ⟨st, rfl, hi⟩
    | some n =>
      have hno : ∀ (i : Nat) (m : Mod), st.mods[i]? = some m → m.map ≠ n := by
        intro i m hm hmn
        exact ha ⟨m, List.mem_of_getElem? hm, by rw [hl, hmn]⟩
      dsimp only
      rw [freeMap_some (fun i m hm hmn => absurd hmn (hno i m hm))]
      have hsame : (st.mods.map fun m => if m.map = n then { m with blk := false } else m) = st.mods := by
        conv => rhs; rw [← List.map_id st.mods]
        apply List.map_congr_left
        intro m hm
        obtain ⟨i, hil, hie⟩ := List.getElem_of_mem hm
        rw [if_neg (hno i m (by rw [List.getElem?_eq_getElem hil, hie]))]
        rfl
      rw [hsame]
      refine ⟨_, rfl, ?_⟩
      have hu : ∀ m, m.map ≠ n → (Used { st with load := none } m ↔ Used st m) := by
        intro m hm
        unfold Used
        rw [hl]
        simp only [Option.some.injEq, reduceCtorEq, or_false]
        constructor
        · exact .inl
        · rintro (h | h)
          · exact h
          · exact absurd h.symm hm
      constructor
      · intro i m hm
        have := hu m (hno i m hm)
        exact good_mono m (hi.good i m hm) (fun hk => by
          have hg := hi.good i m hm
          rw [this]
          unfold Good at hg
          rw [hk] at hg
          exact hg.2.2.2.2.2.2.2.2) this.mp
      · exact hi.mapb
      · exact hi.curb
      · intro m hm; cases hm
      · intro m _ h; cases h
      · exact hi.send
      · intro c hc
        obtain ⟨a, b, _⟩ := hi.cl c hc
        exact ⟨a, b, fun h => by cases h⟩
      · exact hi.clb
      · exact hi.clu
      · exact hi.cln
      · intro i m hm hnu
        exact hi.old i m hm (fun h => hnu ((hu m (hno i m hm)).mpr h))
  | loadSwap =>
    simp only [step]
    cases hl : st.load with
    | none => exact ⟨st, rfl, hi⟩
    | some n =>
      dsimp only
      by_cases hs : st.senders = []
      · rw [if_pos hs]
        refine ⟨_, rfl, ?_⟩
        have hnp : ∀ (i : Nat) (m : Mod), st.mods[i]? = some m → st.cur = some m.map → m.kind ≠ .proxied := by
          intro i m hm hc hk
          exact ha ⟨m, List.mem_of_getElem? hm, hc, hk⟩
        -- the groups that are used now were before
        have hback : ∀ m : Mod, some n = some m.map ∨ (none : Option Nat) = some m.map → Used st m := by
          rintro m (h | h)
          · exact .inr (by rw [hl]; exact h)
          · cases h
        have hgood : ∀ (i : Nat) (m : Mod), st.mods[i]? = some m → Good (some n = some m.map ∨ (none : Option Nat) = some m.map) m := by
          intro i m hm
          refine good_mono m (hi.good i m hm) (fun hk => ?_) (hback m)
          have hg := hi.good i m hm
          unfold Good at hg
          rw [hk] at hg
          rcases hg.2.2.2.2.2.2.2.2 with h | h
          · exact absurd hk (hnp i m hm h)
          · exact .inl (by rw [← h, hl])
        cases hc : st.cur with
        | none =>
          dsimp only
          constructor
          · exact hgood
          · exact hi.mapb
          · intro m hm
            exact hi.loadb m (by rw [hl]; exact hm)
          · intro m hm; cases hm
          · intro m _ h; cases h
          · intro p hp
            have : p ∈ st.senders := hp
            rw [hs] at this
            cases this
          · intro c hcl
            obtain ⟨a, _, b⟩ := hi.cl c hcl
            refine ⟨a, ?_, fun h => by cases h⟩
            rw [hl] at b
            exact b
          · exact hi.clb
          · exact hi.clu
          · exact hi.cln
          · intro i m hm hnu
            refine hi.old i m hm ?_
            rintro (h | h)
            · rw [hc] at h; cases h
            · exact hnu (.inl (by rw [← h, hl]))
        | some o =>
          dsimp only
          have hon : o ≠ n := by
            rintro rfl
            exact hi.diff o hc hl
          constructor
          · exact hgood
          · exact hi.mapb
          · intro m hm
            exact hi.loadb m (by rw [hl]; exact hm)
          · intro m hm; cases hm
          · intro m _ h; cases h
          · intro p hp
            have : p ∈ st.senders := hp
            rw [hs] at this
            cases this
          · intro c hcl
            rcases List.mem_append.mp hcl with hcl | hcl
            · obtain ⟨a, _, b⟩ := hi.cl c hcl
              refine ⟨a, ?_, fun h => by cases h⟩
              rw [hl] at b
              exact b
            · simp only [List.mem_singleton] at hcl
              subst hcl
              exact ⟨hi.curb o hc, fun h => hon (Option.some.inj h).symm, fun h => by cases h⟩
          · intro c hcl i m hm hmc
            rcases List.mem_append.mp hcl with hcl | hcl
            · exact hi.clb c hcl i m hm hmc
            · simp only [List.mem_singleton] at hcl
              subst hcl
              exact live_blk (hi.good i m hm) (.inl (by rw [hc]; exact congrArg some hmc.symm))
          · intro c hcl hu i m hi' hm hmc
            rcases List.mem_append.mp hcl with hcl | hcl
            · exact hi.clu c hcl hu i m hi' hm hmc
            · simp only [List.mem_singleton] at hcl
              subst hcl
              exact absurd hi' (Nat.not_lt_zero i)
          · show ((st.cleaners ++ [(⟨o, 0, false⟩ : Cleaner)]).map Cleaner.map).Nodup
            rw [List.map_append, List.nodup_append]
            refine ⟨hi.cln, by simp, ?_⟩
            intro a haa b hb
            simp only [List.map_cons, List.map_nil, List.mem_singleton] at hb
            subst hb
            obtain ⟨c, hcl, rfl⟩ := List.mem_map.mp haa
            intro h
            exact (hi.cl c hcl).2.1 (by rw [hc, h])
          · intro i m hm hnu
            by_cases hmo : m.map = o
            · exact .inr ⟨⟨o, 0, false⟩, by simp, hmo.symm⟩
            · rcases hi.old i m hm (by
                rintro (h | h)
                · rw [hc] at h; exact hmo (Option.some.inj h).symm
                · exact hnu (.inl (by rw [← h, hl]))) with h | ⟨d, hd, he⟩
              · exact .inl h
              · exact .inr ⟨d, List.mem_append.mpr (.inl hd), he⟩
      · rw [if_neg hs]; exact ⟨st, rfl, hi⟩

theorem run_inv {es : List Ev} : ∀ {st : St}, Inv st → Calm st es → ∃ st', run st es = some st' ∧ Inv st' := by
  induction es with
  | nil => intro st hi _; exact ⟨st, rfl, hi⟩
  | cons e es ih =>
    intro st hi hc
    obtain ⟨st', h1, h2⟩ := step_inv hi hc.1
    obtain ⟨st'', h3, h4⟩ := ih h2 (hc.2 st' h1)
    exact ⟨st'', by simp only [run, h1, h3], h4⟩

end Verif.Lifecycle
