import Verif.Spec.Groups
import Verif.Props.StringChunk

namespace Verif.Groups
open StringChunk

/-- The additions to the table for these groups, the first one having number `k`. -/
def opsFrom (k : Nat) (gs : List Group) : List (Op Nat) :=
  (gs.zipIdx k).flatMap (fun g => g.1.domains.map (fun d => Op.addDomain d (some g.2)))

structure Rep (m : Map) (gs : List Group) : Prop where
  modules : m.modules = gs.map (·.proto)
  dist : m.dist = (StringChunk.init bkdrHash).run (opsFrom 0 gs)

theorem entries_rules (k : Nat) (gs : List Group) : (opsFrom k gs).map Op.entry =
    ((gs.zipIdx k).flatMap (fun g => g.1.domains.map (fun d => (domainText d, g.2)))).map (fun r => (⟨r.1, some r.2⟩ : Entry Nat)) := by
  simp only [opsFrom, List.map_flatMap, List.map_map]
  rfl

theorem plain_ops (gs : List Group) : plain (opsFrom 0 gs) =
    ((rules gs).filter (fun r => !decide (IsPattern r.1))).map (fun r => (⟨r.1, some r.2⟩ : Entry Nat)) := by
  rw [plain, entries_rules, List.filter_map]
  rfl

theorem patterns_ops (gs : List Group) : patterns (opsFrom 0 gs) =
    ((rules gs).filter (fun r => decide (IsPattern r.1))).map (fun r => (⟨r.1, some r.2⟩ : Entry Nat)) := by
  rw [patterns, entries_rules, List.filter_map]
  rfl

theorem fits_iff (o : Opts) (tcp : Bool) (p : Proto) : fits o tcp p = true ↔ Fits o tcp p := by
  cases tcp <;> cases p <;> simp [fits, Fits]

/-- The check given to the table. -/
def check (o : Opts) (m : Map) (tcp : Bool) (d : Option Nat) : Bool :=
  match d.bind (m.modules[·]?) with | some p => fits o tcp p | none => false

theorem check_iff {m : Map} {gs : List Group} (h : Rep m gs) (o : Opts) (tcp : Bool) (i : Nat) :
    check o m tcp (some i) = true ↔ ∃ g, gs[i]? = some g ∧ Fits o tcp g.proto := by
  simp only [check, Option.bind_some, h.modules, List.getElem?_map]
  cases gs[i]? with
  | none => simp
  | some g => simp [fits_iff]

theorem plainFor_iff {m : Map} {gs : List Group} (h : Rep m gs) (o : Opts) (tcp : Bool) (name : List Byte) (r : List Byte × Nat) :
    PlainFor o tcp gs name r ↔ (⟨r.1, some r.2⟩ : Entry Nat) ∈ plain (opsFrom 0 gs) ∧ Covers r.1 name ∧ check o m tcp (some r.2) = true := by
  rw [check_iff h, plain_ops, PlainFor, Usable]
  constructor
  · rintro ⟨⟨h1, h2⟩, h3, h4⟩
    refine ⟨List.mem_map.2 ⟨r, ?_, rfl⟩, h4, h2⟩
    simp [h1, h3]
  · rintro ⟨h1, h4, h2⟩
    obtain ⟨q, hq, e⟩ := List.mem_map.1 h1
    have : q = r := by
      cases q; cases r
      simp only [Entry.mk.injEq, Option.some.injEq] at e
      simp [e.1, e.2]
    subst this
    simp only [List.mem_filter, Bool.not_eq_true', decide_eq_false_iff_not] at hq
    exact ⟨⟨hq.1, h2⟩, hq.2, h4⟩

theorem patternFor_iff {m : Map} {gs : List Group} (h : Rep m gs) (o : Opts) (tcp : Bool) (fnm : List Byte → List Byte → Bool)
    (name : List Byte) (r : List Byte × Nat) :
    PatternFor o tcp gs fnm name r ↔
      (⟨r.1, some r.2⟩ : Entry Nat) ∈ patterns (opsFrom 0 gs) ∧ fnm r.1 name = true ∧ check o m tcp (some r.2) = true := by
  rw [check_iff h, patterns_ops, PatternFor, Usable]
  constructor
  · rintro ⟨⟨h1, h2⟩, h3, h4⟩
    refine ⟨List.mem_map.2 ⟨r, ?_, rfl⟩, h4, h2⟩
    simp [h1, h3]
  · rintro ⟨h1, h4, h2⟩
    obtain ⟨q, hq, e⟩ := List.mem_map.1 h1
    have : q = r := by
      cases q; cases r
      simp only [Entry.mk.injEq, Option.some.injEq] at e
      simp [e.1, e.2]
    subst this
    simp only [List.mem_filter, decide_eq_true_eq] at hq
    exact ⟨⟨hq.1, h2⟩, hq.2, h4⟩

/-- Entries of the table are rules. -/
theorem plain_data {gs : List Group} {e : Entry Nat} (h : e ∈ plain (opsFrom 0 gs)) : ∃ i, e = ⟨e.str, some i⟩ := by
  rw [plain_ops] at h
  obtain ⟨q, _, rfl⟩ := List.mem_map.1 h
  exact ⟨q.2, rfl⟩

theorem patterns_data {gs : List Group} {e : Entry Nat} (h : e ∈ patterns (opsFrom 0 gs)) : ∃ i, e = ⟨e.str, some i⟩ := by
  rw [patterns_ops] at h
  obtain ⟨q, _, rfl⟩ := List.mem_map.1 h
  exact ⟨q.2, rfl⟩

/-- A place in a filtered and mapped list is a place in the list. -/
theorem split_filter_map {β γ : Type} {l : List β} {p : β → Bool} {f : β → γ} {a b : List γ} {x : γ}
    (h : (l.filter p).map f = a ++ x :: b) :
    ∃ l1 y l2, l = l1 ++ y :: l2 ∧ p y = true ∧ f y = x ∧ (l2.filter p).map f = b := by
  induction l generalizing a with
  | nil => simp at h
  | cons z l ih =>
    by_cases hz : p z = true
    · rw [List.filter_cons_of_pos hz, List.map_cons] at h
      cases a with
      | nil =>
        simp only [List.nil_append, List.cons.injEq] at h
        exact ⟨[], z, l, rfl, hz, h.1, h.2⟩
      | cons w a =>
        simp only [List.cons_append, List.cons.injEq] at h
        obtain ⟨l1, y, l2, rfl, h2, h3, h4⟩ := ih h.2
        exact ⟨z :: l1, y, l2, rfl, h2, h3, h4⟩
    · rw [List.filter_cons_of_neg hz] at h
      obtain ⟨l1, y, l2, rfl, h2, h3, h4⟩ := ih h
      exact ⟨z :: l1, y, l2, rfl, h2, h3, h4⟩

theorem route_some {m : Map} {gs : List Group} (h : Rep m gs) (o : Opts) (fnm : List Byte → List Byte → Bool) (behind : List Byte)
    (rnd id : Nat) (tcp : Bool) (name : List Byte) (hn : name ≠ []) (i : Nat)
    (hr : route o m fnm behind rnd id tcp name (bkdrHash name) = some i) : Documented o tcp gs fnm name i := by
  have hr' : (match m.dist.domainMatchWildRandom fnm name (bkdrHash name) (check o m tcp) behind rnd with
    | some r => r | none => if m.modules.length > 0 then some (id % m.modules.length) else none) = some i := hr
  rw [h.dist, Chunk.domainMatchWildRandom] at hr'
  cases hd : ((StringChunk.init bkdrHash).run (opsFrom 0 gs)).domainMatchNoWild name (bkdrHash name) (check o m tcp) behind with
  | some d =>
    rw [hd] at hr'
    dsimp only at hr'
    subst hr'
    obtain ⟨e, h1, h2, ⟨b, a, hl, ⟨_, hok⟩, hafter⟩, h4⟩ := domain_match_most_specific bkdrHash _ name behind _ _ hn hd
    left
    have he : e = ⟨e.str, some i⟩ := by rw [← h1]
    rw [plain_ops] at hl
    obtain ⟨l1, y, l2, hy1, hy2, hy3, hy4⟩ := split_filter_map hl
    have hy : y = (e.str, i) := by
      cases y
      rw [he] at hy3
      simp only [Entry.mk.injEq, Option.some.injEq] at hy3
      simp [hy3.1, hy3.2]
    subst hy
    refine ⟨e.str, l1, l2, hy1, ?_, ?_, ?_⟩
    · rw [plainFor_iff h]
      refine ⟨?_, h2, by rw [h1] at hok; exact hok⟩
      rw [plain_ops]
      exact List.mem_map.2 ⟨(e.str, i), by rw [List.mem_filter]; exact ⟨by rw [hy1]; simp, hy2⟩, rfl⟩
    · intro r hr
      rw [plainFor_iff h] at hr
      exact h4 ⟨r.1, some r.2⟩ hr.1 hr.2.1 hr.2.2
    · intro j hj hp
      rw [plainFor_iff h] at hp
      apply hafter ⟨e.str, some j⟩ _ ⟨rfl, hp.2.2⟩
      rw [← hy4]
      exact List.mem_map.2 ⟨(e.str, j), by rw [List.mem_filter]; exact ⟨hj, hy2⟩, rfl⟩
  | none =>
    rw [hd] at hr'
    dsimp only at hr'
    have hnp : ∀ r, ¬ PlainFor o tcp gs name r := by
      intro r hp
      rw [plainFor_iff h] at hp
      have := (domain_match_iff bkdrHash (opsFrom 0 gs) name behind (check o m tcp) hn).2 ⟨_, hp.1, hp.2⟩
      rw [hd] at this
      cases this
    have hp := pattern_random_choice bkdrHash (opsFrom 0 gs) fnm name (check o m tcp) rnd
    cases hg : ((StringChunk.init bkdrHash).run (opsFrom 0 gs)).matchWildGetOne fnm name (check o m tcp) rnd with
    | some d =>
      rw [hg] at hr'
      simp only [Option.map_some, Option.some.injEq] at hr'
      subst hr'
      obtain ⟨e, he, h1, h2, h3, h4⟩ := hp.1 d hg
      right; left
      have hed : e = ⟨e.str, some d⟩ := by rw [← h3]
      refine ⟨hnp, e.str, ?_, ?_⟩
      · rw [patternFor_iff h]
        exact ⟨by rw [← hed]; exact he, h1, by rw [← h3]; exact h2⟩
      · intro hs r hr
        rw [patternFor_iff h] at hr
        exact h4 hs _ hr.1 hr.2.1 hr.2.2
    | none =>
      rw [hg] at hr'
      simp only [Option.map_none] at hr'
      right; right
      refine ⟨hnp, ?_, ?_⟩
      · intro r hr
        rw [patternFor_iff h] at hr
        refine hp.2 ?_ hg _ hr.1 ⟨hr.2.1, hr.2.2⟩
        intro e he
        obtain ⟨i, hi⟩ := patterns_data he
        rw [hi]; rfl
      · split at hr'
        · rename_i hlen
          simp only [Option.some.injEq] at hr'
          rw [h.modules, List.length_map] at hr' hlen
          rw [← hr']
          exact Nat.mod_lt _ hlen
        · cases hr'

theorem route_none {m : Map} {gs : List Group} (h : Rep m gs) (o : Opts) (fnm : List Byte → List Byte → Bool) (behind : List Byte)
    (rnd id : Nat) (tcp : Bool) (name : List Byte) (hn : name ≠ []) :
    route o m fnm behind rnd id tcp name (bkdrHash name) = none ↔ gs = [] := by
  have hr' : route o m fnm behind rnd id tcp name (bkdrHash name) =
    (match m.dist.domainMatchWildRandom fnm name (bkdrHash name) (check o m tcp) behind rnd with
    | some r => r | none => if m.modules.length > 0 then some (id % m.modules.length) else none) := rfl
  rw [hr', h.dist, Chunk.domainMatchWildRandom]
  have hlen : m.modules.length = gs.length := by rw [h.modules, List.length_map]
  constructor
  · intro hx
    cases hd : ((StringChunk.init bkdrHash).run (opsFrom 0 gs)).domainMatchNoWild name (bkdrHash name) (check o m tcp) behind with
    | some d =>
      rw [hd] at hx
      dsimp only at hx
      subst hx
      obtain ⟨e, h1, _, ⟨b, a, hl, _, _⟩, _⟩ := domain_match_most_specific bkdrHash _ name behind _ _ hn hd
      obtain ⟨i, hi⟩ := plain_data (e := e) (by rw [hl]; simp)
      rw [hi] at h1
      cases h1
    | none =>
      rw [hd] at hx
      dsimp only at hx
      cases hg : ((StringChunk.init bkdrHash).run (opsFrom 0 gs)).matchWildGetOne fnm name (check o m tcp) rnd with
      | some d => rw [hg] at hx; simp at hx
      | none =>
        rw [hg] at hx
        simp only [Option.map_none] at hx
        split at hx
        · cases hx
        · exact List.length_eq_zero_iff.1 (by omega)
  · rintro rfl
    have hd : ((StringChunk.init bkdrHash).run (opsFrom 0 [])).domainMatchNoWild name (bkdrHash name) (check o m tcp) behind = none := by
      rw [← Option.not_isSome_iff_eq_none, Bool.not_eq_true]
      apply Bool.eq_false_iff.2
      intro hc
      obtain ⟨e, he, _⟩ := (domain_match_iff bkdrHash (opsFrom 0 []) name behind (check o m tcp) hn).1 hc
      simp [opsFrom, plain] at he
    rw [hd]
    simp [opsFrom, Chunk.run, StringChunk.init, Chunk.matchWildGetOne, hlen]

/-! ### Every choice that is possible is made sometimes -/

theorem pattern_reach (hash : List Byte → UInt32) (ops : List (Op Nat)) (fnm : List Byte → List Byte → Bool) (s : List Byte)
    (ok : Option Nat → Bool) (e : Entry Nat) (he : e ∈ patterns ops) (h1 : fnm e.str s = true) (h2 : ok e.data = true)
    (h3 : e.str = [42] → ∀ x ∈ patterns ops, fnm x.str s = true → ok x.data = true → x.str = [42]) :
    ∃ rnd, ((StringChunk.init hash).run ops).matchWildGetOne fnm s ok rnd = e.data := by
  unfold Chunk.matchWildGetOne
  have hw : ((StringChunk.init hash).run ops).wild = patterns ops := (good_of_run hash ops).wild
  rw [hw]
  have hh : e ∈ (patterns ops).filter (fun e => fnm e.str s && ok e.data) := by simp [he, h1, h2]
  have hmem : ∀ e, e ∈ (patterns ops).filter (fun e => fnm e.str s && ok e.data) → e ∈ patterns ops ∧ fnm e.str s = true ∧ ok e.data = true := by
    intro e; simp
  generalize (patterns ops).filter (fun e => fnm e.str s && ok e.data) = hits at hh hmem
  dsimp only
  generalize hpm : (if (hits.filter (fun e => e.str != [42])).length > 0 then
      hits.filter (fun e => e.str != [42]) else hits.filter (fun e => e.str == [42])) = pm
  have hin : e ∈ pm := by
    rw [← hpm]
    by_cases hs : e.str = [42]
    · have : (hits.filter (fun e => e.str != [42])) = [] := by
        rw [List.filter_eq_nil_iff]
        intro x hx
        obtain ⟨k1, k2, k3⟩ := hmem x hx
        simp [h3 hs x k1 k2 k3]
      rw [this, if_neg (by simp)]
      simp [hh, hs]
    · have : e ∈ hits.filter (fun e => e.str != [42]) := by simp [hh, hs]
      rw [if_pos (List.length_pos_of_mem this)]
      exact this
  obtain ⟨k, hk, e'⟩ := List.getElem_of_mem hin
  refine ⟨k, ?_⟩
  rw [Nat.mod_eq_of_lt hk, List.getElem?_eq_getElem hk, e']

theorem covers_suffix {t name : List Byte} (h : Covers t name) : t <:+ name := by
  rcases h with rfl | ⟨sub, _, rfl⟩
  · exact List.suffix_refl _
  · exact ⟨sub ++ [46], by simp⟩

theorem last_unique {l a b c d : List (List Byte × Nat)} {t : List Byte} {i j : Nat} (P : Nat → Prop) (h1 : l = a ++ (t, i) :: b) (h2 : l = c ++ (t, j) :: d)
    (hi : P i) (hj : P j) (hb : ∀ k, (t, k) ∈ b → ¬ P k) (hd : ∀ k, (t, k) ∈ d → ¬ P k) : i = j := by
  rw [h1] at h2
  rcases List.append_eq_append_iff.1 h2 with ⟨x, rfl, hx⟩ | ⟨x, rfl, hx⟩
  · cases x with
    | nil => simp at hx; exact hx.1
    | cons y x =>
      simp only [List.cons_append, List.cons.injEq] at hx
      exact absurd hj (hb j (by rw [hx.2]; simp))
  · cases x with
    | nil => simp at hx; exact hx.1.symm
    | cons y x =>
      simp only [List.cons_append, List.cons.injEq] at hx
      exact absurd hi (hd i (by rw [hx.2]; simp))

theorem route_reach {m : Map} {gs : List Group} (h : Rep m gs) (o : Opts) (fnm : List Byte → List Byte → Bool) (behind : List Byte)
    (tcp : Bool) (name : List Byte) (hn : name ≠ []) (i : Nat) (hd : Documented o tcp gs fnm name i) :
    ∃ rnd id, route o m fnm behind rnd id tcp name (bkdrHash name) = some i := by
  have hplain : (∀ r, ¬ PlainFor o tcp gs name r) →
      ((StringChunk.init bkdrHash).run (opsFrom 0 gs)).domainMatchNoWild name (bkdrHash name) (check o m tcp) behind = none := by
    intro hnp
    rw [← Option.not_isSome_iff_eq_none]
    intro hc
    obtain ⟨e, he, hc1, hc2⟩ := (domain_match_iff bkdrHash (opsFrom 0 gs) name behind (check o m tcp) hn).1 hc
    obtain ⟨j, hj⟩ := plain_data he
    have hdj : e.data = some j := by rw [hj]
    exact hnp (e.str, j) ((plainFor_iff h ..).2 ⟨by rw [← hj]; exact he, hc1, by rw [← hdj]; exact hc2⟩)
  rcases hd with ⟨t, a, b, e, hp, hmax, hlast⟩ | ⟨hnp, t, hp, hstar⟩ | ⟨hnp, hnw, hlt⟩
  · refine ⟨0, 0, ?_⟩
    cases hr : route o m fnm behind 0 0 tcp name (bkdrHash name) with
    | none =>
      have := (route_none h o fnm behind 0 0 tcp name hn).1 hr
      subst this
      simp [rules] at e
    | some j =>
      have := route_some h o fnm behind 0 0 tcp name hn j hr
      rcases this with ⟨t', a', b', e', hp', hmax', hlast'⟩ | ⟨hnp, _⟩ | ⟨hnp, _⟩
      · have l1 := hmax _ hp'
        have l2 := hmax' _ hp
        have s1 : t <:+ name := covers_suffix hp.2.2
        have s2 : t' <:+ name := covers_suffix hp'.2.2
        have : t = t' := by
          have l1 : t'.length ≤ t.length := l1
          have l2 : t.length ≤ t'.length := l2
          rw [List.suffix_iff_eq_drop] at s1 s2
          rw [s1, s2]
          have : t.length = t'.length := by omega
          rw [this]
        subst this
        rw [last_unique (fun k => PlainFor o tcp gs name (t, k)) e e' hp hp' hlast hlast']
      · exact absurd hp (hnp _)
      · exact absurd hp (hnp _)
  · have hp2 := (patternFor_iff h ..).1 hp
    obtain ⟨rnd, hr⟩ := pattern_reach bkdrHash (opsFrom 0 gs) fnm name (check o m tcp) ⟨t, some i⟩ hp2.1 hp2.2.1 hp2.2.2
      (by
        intro hs x hx k1 k2
        obtain ⟨j, hj⟩ := patterns_data hx
        have hdj : x.data = some j := by rw [hj]
        exact hstar hs (x.str, j) ((patternFor_iff h ..).2 ⟨by rw [← hj]; exact hx, k1, by rw [← hdj]; exact k2⟩))
    refine ⟨rnd, 0, ?_⟩
    show (match m.dist.domainMatchWildRandom fnm name (bkdrHash name) (check o m tcp) behind rnd with
      | some r => r | none => if m.modules.length > 0 then some (0 % m.modules.length) else none) = some i
    rw [h.dist, Chunk.domainMatchWildRandom, hplain hnp]
    dsimp only
    rw [hr]
    rfl
  · refine ⟨0, i, ?_⟩
    show (match m.dist.domainMatchWildRandom fnm name (bkdrHash name) (check o m tcp) behind 0 with
      | some r => r | none => if m.modules.length > 0 then some (i % m.modules.length) else none) = some i
    rw [h.dist, Chunk.domainMatchWildRandom, hplain hnp]
    dsimp only
    have hp := pattern_random_choice bkdrHash (opsFrom 0 gs) fnm name (check o m tcp) 0
    cases hg : ((StringChunk.init bkdrHash).run (opsFrom 0 gs)).matchWildGetOne fnm name (check o m tcp) 0 with
    | some d =>
      obtain ⟨e, he, h1, h2, h3, h4⟩ := hp.1 d hg
      have hed : e = ⟨e.str, some d⟩ := by rw [← h3]
      exact absurd ((patternFor_iff h ..).2 ⟨by rw [← hed]; exact he, h1, by rw [← h3]; exact h2⟩) (hnw (e.str, d))
    | none =>
      have hlen : m.modules.length = gs.length := by rw [h.modules, List.length_map]
      dsimp only [Option.map_none]
      rw [hlen, if_pos (by omega), Nat.mod_eq_of_lt hlt]

end Verif.Groups
