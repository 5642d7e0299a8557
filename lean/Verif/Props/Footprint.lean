import Verif.Lemmas.Footprint
import Verif.Props.MContext
import Verif.Props.Statistic
import Verif.Props.Forwarder
/-! C123: however long the program runs, it needs no more memory for waiting queries than for those that waited at one time. -/

namespace Verif.Footprint
open Bst MContext Msg Pipeline

variable {α C Addr : Type}

/-- C123, all trees: after any sequence of calls the tree has no more nodes than elements were in it at one time. -/
theorem nodes_reused (cmp : α → α → Int) (ops : List (Bst.Op α)) (s : State α) (es : List (Bst.Event α)) (n : Nat)
    (h : State.run cmp State.init ops = some (s, es)) (hn : ∀ k, (live (es.take k)).length ≤ n) : s.fresh ≤ n := by
  have key : ∀ (ops : List (Bst.Op α)) (s0 s : State α) (es : List (Bst.Event α)) (lv : List (Nat × α)), Tight s0 → s0.root.toList.Perm lv → s0.fresh ≤ n →
      s0.run cmp ops = some (s, es) → (∀ k, ((es.take k).foldl liveStep lv).length ≤ n) → s.fresh ≤ n := by
    intro ops
    induction ops with
    | nil => intro s0 s es lv _ _ hf h _; cases h; exact hf
    | cons op ops ih =>
      intro s0 s es lv ht hp hf h hn
      simp only [State.run] at h
      split at h
      · cases h
      rename_i s1 e hs
      split at h
      · cases h
      rename_i s2 es2 hr
      cases h
      obtain ⟨-, hl⟩ := step_live ht.inv hs lv hp
      have h1 := hn 1
      simp only [List.take_succ_cons, List.take_zero, List.foldl_cons, List.foldl_nil] at h1
      have hfin : Tight s1 ∧ s1.fresh ≤ n := by
        cases op with
        | add x =>
          simp only [State.step, Option.some.injEq, Prod.mk.injEq] at hs
          obtain ⟨rfl, rfl⟩ := hs
          obtain ⟨a1, a2, a3⟩ := tight_add (cmp := cmp) ht x
          rw [← hl.length_eq] at h1
          exact ⟨a1, by omega⟩
        | delete a =>
          simp only [State.step] at hs
          split at hs
          · rename_i ha
            simp only [Option.some.injEq, Prod.mk.injEq] at hs
            obtain ⟨rfl, rfl⟩ := hs
            have := tight_delete ht ha
            exact ⟨this.1, by rw [this.2]; exact hf⟩
          · cases hs
        | reset =>
          simp only [State.step, Option.some.injEq, Prod.mk.injEq] at hs
          obtain ⟨rfl, rfl⟩ := hs
          exact ⟨tight_init, Nat.zero_le _⟩
      exact ih s1 s es2 _ hfin.1 hl hfin.2 hr (fun k => by simpa using hn (k + 1))
  exact key ops _ s es [] tight_init (by simp [State.init, Tree.toList]) (Nat.zero_le _) h hn

/-- C123.  For every history of the whole program from its start: if never more than `n` queries wait at one time for one server group or at the alias
worker, then no table of waiting queries ever has places for more than `n`. -/
theorem places_reused (st st' : Forwarder.St Addr) (l : List (Env × Forwarder.Ev Addr)) (acts : List (Forwarder.Act Addr)) (n : Nat) (hs : Forwarder.Start st)
    (h : Forwarder.run st l = some (st', acts))
    (hn : ∀ k s a, Forwarder.run st (l.take k) = some (s, a) → (∀ d ∈ s.mods, (waiting d.table).length ≤ n) ∧ (waiting s.loop.table).length ≤ n) :
    (∀ d ∈ st'.mods, d.table.fresh ≤ n) ∧ st'.loop.table.fresh ≤ n := by
  have key : ∀ (l : List (Env × Forwarder.Ev Addr)) (st st' : Forwarder.St Addr) (acts : List (Forwarder.Act Addr)), All (Small n) st → Forwarder.run st l = some (st', acts) →
      (∀ k s a, Forwarder.run st (l.take k) = some (s, a) → All (fun t => (waiting t).length ≤ n) s) → All (Small n) st' := by
    intro l
    induction l with
    | nil => intro st st' acts h0 h _; cases h; exact h0
    | cons x l ih =>
      intro st st' acts h0 h hn
      obtain ⟨e, ev⟩ := x
      simp only [Forwarder.run] at h
      split at h
      · cases h
      rename_i s1 a1 hs1
      split at h
      · cases h
      rename_i s2 a2 hr
      cases h
      have h1 := step_small h0 hs1 (hn 1 s1 (a1 ++ []) (by simp [Forwarder.run, hs1]))
      exact ih s1 st' a2 h1 hr (fun k s a hk => hn (k + 1) s (a1 ++ a) (by simp [Forwarder.run, hs1, hk]))
  have := key l st st' acts ⟨fun d hd => (by rw [hs.1] at hd; cases hd), by rw [hs.2.1]; exact ⟨tight_init, Nat.zero_le _⟩⟩ h hn
  exact ⟨fun d hd => (this.1 d hd).2, this.2.2⟩

/-- C123.  If the table is swept at least every `gap` seconds and in no stretch of `gap + 2` seconds more than `n` queries come, then it never has
places for more than `n`, however many queries came in all, whether or not they were answered. -/
theorem places_of_rate (ops : List (MContext.Op C)) (start gap : Int) (n : Nat) (hs : Swept gap start ops)
    (hn : ∀ t, between (t - 2) (t + gap) (queriesOf ops) ≤ n) : (MContext.run State.init ops).1.fresh ≤ n := by
  refine (run_small ops ⟨tight_init, Nat.zero_le _⟩ (fun k => ?_)).2
  have hsw : ∀ (ops : List (MContext.Op C)) (k : Nat) (last : Int), Swept gap last ops → Swept gap last (ops.take k) := by
    intro ops
    induction ops with
    | nil => intro k last h; simpa using h
    | cons op ops ih =>
      intro k last h
      cases k with
      | zero => trivial
      | succ k =>
        cases op with
        | query now p => exact ⟨h.1, h.2.1, ih k _ h.2.2⟩
        | response r => exact ih k _ h
        | sweep now => exact ⟨h.1, ih k _ h.2⟩
  have hq : ∀ (ops : List (MContext.Op C)) (k : Nat), (queriesOf (ops.take k)).Sublist (queriesOf ops) := by
    intro ops
    induction ops with
    | nil => intro k; simp
    | cons op ops ih =>
      intro k
      cases k with
      | zero => simp [queriesOf]
      | succ k =>
        cases op with
        | query now p => exact (ih k).cons_cons _
        | response r => exact ih k
        | sweep now => exact ih k
  obtain ⟨t, ht⟩ := swept_young (ops.take k) inv_init (c := (State.init : Table C)) (last := start) (by simp [waiting, State.init, Tree.toList]) (hsw ops k start hs)
  have hc := pending_conservation (C := C) (ops.take k)
  have h1 : (waiting (MContext.run (State.init : Table C) (ops.take k)).1).length ≤ between (t - 2) (t + gap) (queriesOf (ops.take k)) := by
    unfold between
    rw [hc.countP_eq, List.countP_append]
    have : (waiting (MContext.run (State.init : Table C) (ops.take k)).1).countP (fun p => decide (t - 2 ≤ p.timestamp ∧ p.timestamp ≤ t + gap)) =
        (waiting (MContext.run (State.init : Table C) (ops.take k)).1).length := List.countP_eq_length.2 fun p hp => by simpa using ht p hp
    omega
  have h2 : between (t - 2) (t + gap) (queriesOf (ops.take k)) ≤ between (t - 2) (t + gap) (queriesOf ops) := (hq ops k).countP_le
  have := hn t
  omega

/-- C123.  Of the names of the queries counted, the statistics keep each once. -/
theorem names_kept (fnm : List Byte → List Byte → Bool) (hash : List Byte → UInt32) (es : List Statistic.Ev) (st : Statistic.State)
    (hp : ∀ e ∈ Statistic.counted false es, Statistic.Plain e.1) (h : Statistic.run fnm (Statistic.State.init hash) es = some st) :
    ∃ ns : List (List Byte), ns.Nodup ∧ (∀ d, d ∈ ns ↔ ∃ t, (d, t) ∈ Statistic.counted false es) ∧ st.infos.length = ns.length := by
  have hi := (Statistic.inv_run fnm es (Statistic.inv_init hash) hp).1 st h
  rw [show (Statistic.State.init hash).skip = false from rfl, List.nil_append] at hi
  exact ⟨_, hi.nodup, fun d => by rw [hi.mem]; simp, by rw [hi.infos, List.length_map]⟩

/-- The statistics need memory for a number of names fixed beforehand. -/
def NamesBounded : Prop :=
  ∃ n < 2147483647, ∀ (fnm : List Byte → List Byte → Bool) (hash : List Byte → UInt32) (es : List Statistic.Ev) (st : Statistic.State),
    (∀ e ∈ Statistic.queries es, e.1.length ≤ 253) → Statistic.run fnm (Statistic.State.init hash) es = some st → st.infos.length ≤ n

/-- Different names of 32 letters. -/
def letters (k : Nat) : List Byte := (List.range 32).map fun i => if k.testBit i then 97 else 98

theorem letters_inj {j k : Nat} (hj : j < 4294967296) (hk : k < 4294967296) (h : letters j = letters k) : j = k := by
  refine Nat.eq_of_testBit_eq fun i => ?_
  by_cases hi : i < 32
  · have := congrArg (fun l => l[i]?) h
    simp only [letters, List.getElem?_map, List.getElem?_range hi, Option.map_some, Option.some.injEq] at this
    cases h1 : j.testBit i <;> cases h2 : k.testBit i <;> simp [h1, h2] at this ⊢
  · have hp : (4294967296 : Nat) ≤ 2 ^ i := by
      rw [show (4294967296 : Nat) = 2 ^ 32 from rfl]; exact Nat.pow_le_pow_right (by decide) (by omega)
    rw [Nat.testBit_lt_two_pow (by omega), Nat.testBit_lt_two_pow (by omega)]

def asked (n : Nat) : List Statistic.Ev := (List.range n).map fun k => .query (letters k) .udp

theorem asked_counted (l : List Nat) : Statistic.counted false (l.map fun k => .query (letters k) .udp) = l.map fun k => (letters k, .udp) := by
  induction l with
  | nil => rfl
  | cons k l ih => simp [Statistic.counted, ih]

theorem asked_queries (l : List Nat) : Statistic.queries (l.map fun k => .query (letters k) .udp) = l.map fun k => (letters k, .udp) := by
  induction l with
  | nil => rfl
  | cons k l ih => simp [Statistic.queries, ih]

/-- It is false: every name asked for is kept until the program ends. -/
theorem namesBounded_false : ¬ NamesBounded := by
  rintro ⟨n, hn, h⟩
  have hc : Statistic.counted false (asked (n + 1)) = (List.range (n + 1)).map fun k => (letters k, .udp) := asked_counted _
  have hpl : ∀ e ∈ Statistic.counted false (asked (n + 1)), Statistic.Plain e.1 := by
    intro e he
    rw [hc] at he
    obtain ⟨k, _, rfl⟩ := List.mem_map.1 he
    intro c hcm
    obtain ⟨i, _, rfl⟩ := List.mem_map.1 hcm
    split <;> decide
  obtain ⟨st, hst⟩ := (Statistic.inv_run (fun _ _ => false) (asked (n + 1)) (Statistic.inv_init bkdrHash) hpl).2 (by
    rw [show (Statistic.State.init bkdrHash).skip = false from rfl, List.nil_append, hc, List.length_map, List.length_range]; omega)
  have hle := h _ _ _ st (by
    intro e he
    rw [show asked (n + 1) = (List.range (n + 1)).map fun k => .query (letters k) .udp from rfl, asked_queries] at he
    obtain ⟨k, _, rfl⟩ := List.mem_map.1 he
    simp [letters]) hst
  obtain ⟨ns, h1, h2, h3⟩ := names_kept _ _ _ st hpl hst
  have hnd : ((List.range (n + 1)).map letters).Nodup := by
    refine List.pairwise_map.2 (List.Pairwise.imp_of_mem ?_ List.nodup_range)
    intro a b ha hb hab he
    exact hab (letters_inj (by have := List.mem_range.1 ha; omega) (by have := List.mem_range.1 hb; omega) he)
  have := List.Nodup.length_le_of_subset hnd (l₂ := ns) (by
    intro d hd
    obtain ⟨k, hk, rfl⟩ := List.mem_map.1 hd
    rw [h2, hc]
    exact ⟨.udp, List.mem_map.2 ⟨k, hk, rfl⟩⟩)
  rw [List.length_map, List.length_range] at this
  omega

/-! ### cases that meet the hypotheses -/

/-- Three queries come, one after the other, the second and the third after a sweep removed the one before: one place. -/
example : let ops : List (MContext.Op Nat) := [.query 0 ⟨1, 7, [], 1, 5, 0⟩, .sweep 3, .query 3 ⟨2, 7, [], 1, 5, 0⟩, .sweep 6, .query 6 ⟨3, 7, [], 1, 5, 0⟩]
    Swept 0 0 ops ∧ (∀ t, between (t - 2) (t + 0) (queriesOf ops) ≤ 1) ∧ (MContext.run State.init ops).1.fresh = 1 := by
  refine ⟨by simp [Swept], fun t => ?_, by decide +kernel⟩
  simp only [queriesOf, between, List.countP_cons, List.countP_nil, decide_eq_true_eq]
  repeat' split
  all_goals omega

example : ∃ es, State.run (fun a b : Int => a - b) State.init [.add 5, .delete 0, .add 6, .add 7, .delete 0, .add 8] = some es ∧ es.1.fresh = 2 ∧
    ∀ k, (live (es.2.take k)).length ≤ 2 := by
  refine ⟨_, rfl, rfl, fun k => ?_⟩
  by_cases hk : k < 6
  · revert hk; revert k; decide +kernel
  · rw [List.take_of_length_le (by simp; omega)]; decide +kernel

/-- Two clients ask, the second after the first has got its answer: the table of the UDP group has one place; at no time more than one query waits. -/
example : let l := [Forwarder.both, Forwarder.udpAsk 7 (Forwarder.query 1 2 Forwarder.ms 1), Forwarder.serverSays 0 (Forwarder.reply 1 2 Forwarder.ms 1 [1, 2, 3, 4]),
      Forwarder.udpAsk 8 (Forwarder.query 1 3 Forwarder.ms 15)].map fun ev => (Forwarder.exEnv, ev)
    (Forwarder.run Forwarder.exSt l).map (fun r => r.1.mods.map (·.table.fresh)) = some [1, 0] ∧
    ∀ k < 5, ((Forwarder.run Forwarder.exSt (l.take k)).map fun r => r.1.mods.map fun d => (waiting d.table).length) ∈
      [some [], some [0, 0], some [1, 0]] := by decide +kernel

end Verif.Footprint
