import Verif.Model.Threads
import Verif.Lemmas.Forwarder
/-! The balance of queries and replies, with the messages the threads are at work on. -/

namespace Verif.Threads
open Msg MContext Pipeline HostsLoop Forwarder Keeps

variable {Addr : Type}

abbrev Lab (Addr : Type) := Client Addr × Option Nat

/-- A query on its way through `MMgr_Send`. -/
def AskOk (b : List Byte) (m : Head Addr) (l : List (Lab Addr)) : Prop :=
  l = headLab m ∧ Good m ∧ 12 ≤ m.entity.length ∧ m.entity.take 2 = b.take 2

/-- An answer on its way to a client. -/
def AnswerOk (h : Head Addr) (l : List (Lab Addr)) : Prop :=
  Good h ∧ ∃ id, l = lab h id ∧ ∀ i, idOf h.entity = some i → i = id

/-- A task and what is owed with it. -/
def TaskOk [DecidableEq Addr] : Task Addr → List (Lab Addr) → Prop
  | .filter b m _, l => AskOk b m l
  | .hosts b m _, l => AskOk b m l
  | .fetch b m _, l => AskOk b m l
  | .route b m _, l => AskOk b m l
  | .pass _ b m _, l => AskOk b m l
  | .ship _ _ _, _ => True
  | .tell m o handed, l => (∀ y ∈ handed, Good y ∧ 2 ≤ y.entity.length) ∧
      ∃ own, Matched own (replies (posts m o).1) ∧ ∀ k, own.count k + (handed.flatMap headLab).count k ≤ l.count k
  | .look _ b h _ _ _, _ => ∃ n, h.entity = b.take n
  | .learn _ h _ _ _ first, l => first = true → AnswerOk h l
  | .answer h, l => AnswerOk h l

theorem owed_finish (t : Thread) (h : Head Addr) (st : St Addr) : owed (finish t h st) = owed st := by cases t <;> rfl
theorem inv_finish {t : Thread} {h : Head Addr} {st : St Addr} : Inv (finish t h st) ↔ Inv st := by cases t <;> exact Iff.rfl

theorem ask_reply {b : List Byte} {m : Head Addr} {l : List (Lab Addr)} (h : AskOk b m l) {b' : List Byte} (hst : Starts (m.entity.take 2) b') (m' : Head Addr) :
    Matched l (replies (post m' (sendBack { m with entity := b' })).1) := by
  obtain ⟨rfl, hg, _, _⟩ := h
  exact post_matched (m := { m with entity := b' }) (m' := m') (good_entity hg) (ident m.entity).toNat (fun i hi => by
    have e1 := idOf_ident hi
    have e2 : ident b' = ident m.entity := ident_take hst.2
    rw [e1]; dsimp only; rw [e2])

/-- A step of a thread. -/
theorem advance_balance [DecidableEq Addr] {e : Env} {st st' : St Addr} {t : Thread} {task : Task Addr} {next : Option (Task Addr)} {acts : List (Act Addr)}
    {l : List (Lab Addr)} (hi : Inv st) (hk : TaskOk task l) (h : advance e st t task = some (st', next, acts)) :
    Inv st' ∧ ∃ own l', Matched own (replies acts) ∧ (∀ n, next = some n → TaskOk n l') ∧
      ∀ k, own.count k + (owed st').count k + l'.count k ≤ (owed st).count k + l.count k := by
  cases task with
  | filter b m x =>
    have hk : AskOk b m l := hk
    simp only [advance, Filter.filterOut] at h
    split at h
    · rename_i o heq
      simp only [Option.some.injEq, Prod.mk.injEq] at h
      obtain ⟨rfl, rfl, rfl⟩ := h
      refine ⟨hi, [], l, .nil, ?_, fun k => by simp⟩
      rintro n ⟨⟩
      refine ⟨(fun y hy => by cases hy), l, ?_, fun k => by simp⟩
      split at heq
      · simp only [Prod.mk.injEq, true_and] at heq; subst heq
        rw [posts_single]
        exact ask_reply hk (b' := refuse m.entity) (starts_modify (starts_modify ⟨hk.2.2.1, rfl⟩ (by omega)) (by omega)) m
      · simp at heq
    · simp only [Option.some.injEq, Prod.mk.injEq] at h
      obtain ⟨rfl, rfl, rfl⟩ := h
      exact ⟨hi, [], l, .nil, (by rintro n ⟨⟩; exact hk), fun k => by simp⟩
  | hosts b m x =>
    have hk : AskOk b m l := hk
    simp only [advance] at h
    split at h
    · cases h
    · rename_i code o ho
      split at h
      · simp only [Option.some.injEq, Prod.mk.injEq] at h
        obtain ⟨rfl, rfl, rfl⟩ := h
        refine ⟨hi, [], l, .nil, ?_, fun k => by simp⟩
        rintro n ⟨⟩
        rcases hostsGet_out hk.2.2.1 ho with rfl | rfl | ⟨b', hb', rfl⟩
        · exact ⟨(fun y hy => by cases hy), [], .nil, fun k => by simp [handedOf]⟩
        · refine ⟨fun y hy => ?_, [], .nil, fun k => ?_⟩
          · simp only [handedOf, List.filterMap_cons, List.filterMap_nil, List.mem_singleton] at hy
            subst hy
            exact ⟨good_entity hk.2.1, by rw [List.length_take]; have := hk.2.2.1; omega⟩
          · have : headLab { m with entity := m.entity.take 2 } = headLab m := by
              unfold headLab
              rw [show ident (m.entity.take 2) = ident m.entity from ident_take (a := m.entity.take 2) (b := m.entity) (by rw [List.take_take]; rfl)]
              rfl
            simp [handedOf, this, hk.1]
        · refine ⟨(fun y hy => by simp [handedOf] at hy), l, ?_, fun k => by simp [handedOf]⟩
          simp only [repliesOf, List.filterMap_cons, List.filterMap_nil]
          rw [posts_single]
          exact ask_reply hk hb' m
      · simp only [Option.some.injEq, Prod.mk.injEq] at h
        obtain ⟨rfl, rfl, rfl⟩ := h
        exact ⟨hi, [], l, .nil, (by rintro n ⟨⟩; exact hk), fun k => by simp⟩
  | fetch b m x =>
    have hk : AskOk b m l := hk
    simp only [advance] at h
    split at h
    · cases h
    · rename_i code o ho
      split at h
      · rename_i hz
        simp only [Option.some.injEq, Prod.mk.injEq] at h
        obtain ⟨rfl, rfl, rfl⟩ := h
        refine ⟨hi, [], l, .nil, ?_, fun k => by simp⟩
        rintro n ⟨⟩
        have ho' : DnsCache.fetch e.cache.cfg st.cache (b.drop m.entity.length) x.fuel x.now m = some (code, o) := by
          split at ho
          · exact ho
          · simp only [Option.some.injEq, Prod.mk.injEq] at ho; omega
        rcases fetch_out ho' with rfl | ⟨b', hb', rfl⟩
        · exact ⟨(fun y hy => by cases hy), [], .nil, fun k => by simp⟩
        · refine ⟨(fun y hy => by cases hy), l, ?_, fun k => by simp⟩
          rw [posts_single]
          exact ask_reply hk hb' m
      · simp only [Option.some.injEq, Prod.mk.injEq] at h
        obtain ⟨rfl, rfl, rfl⟩ := h
        exact ⟨hi, [], l, .nil, (by rintro n ⟨⟩; exact hk), fun k => by simp⟩
  | route b m x =>
    have hk : AskOk b m l := hk
    simp only [advance] at h
    split at h
    · simp only [Option.some.injEq, Prod.mk.injEq] at h
      obtain ⟨rfl, rfl, rfl⟩ := h
      exact ⟨hi, [], l, .nil, (by rintro n ⟨⟩; exact hk), fun k => by simp⟩
    · simp only [Option.some.injEq, Prod.mk.injEq] at h
      obtain ⟨rfl, rfl, rfl⟩ := h
      exact ⟨inv_finish.2 hi, [], [], .nil, (by rintro n ⟨⟩), fun k => by simp [owed_finish]⟩
  | pass i b m x =>
    obtain ⟨rfl, hg, hm, hb⟩ : AskOk b m l := hk
    simp only [advance] at h
    split at h
    · cases h
    · rename_i d hd
      have hgd := hi.1 d (List.mem_of_getElem? hd)
      split at h
      · split at h
        · cases h
        · rename_i m' d' hu
          simp only [Option.some.injEq, Prod.mk.injEq] at h
          obtain ⟨rfl, rfl, rfl⟩ := h
          unfold udpSend at hu
          split at hu
          · cases hu
          · rename_i m'' ha
            simp only [Option.some.injEq, Prod.mk.injEq] at hu
            obtain ⟨rfl, rfl⟩ := hu
            obtain ⟨e1, e2, e3, e4, e5, e6, e7⟩ := addFakeEdns_head hm ha
            have hgm : Good m'' := by intro a ha; rw [e3]; exact hg a (e1 ▸ ha)
            refine ⟨⟨inv_set hi ⟨good_add hgd.1 hgm, hgd.2⟩, hi.2⟩, [], [], .nil, (by rintro n ⟨⟩; trivial), fun k => ?_⟩
            have hc := count_flatMap_set modOwed k st.mods i d { d with table := MContext.add d.table x.now (entry b m'') } hd
            have hp : pend { entry b m'' with timestamp := x.now } = headLab m := by
              unfold pend headLab entry
              rw [ident_take hb]
              exact count_lab_eq e1 e2 _
            have hw := count_flatMap_perm pend k (add_contents d.table x.now (entry b m''))
            simp only [List.flatMap_cons, List.count_append, hp] at hw
            simp only [owed, List.count_append, List.count_nil]
            simp only [modOwed, List.count_append] at hc
            omega
      · simp only [Option.some.injEq, Prod.mk.injEq] at h
        obtain ⟨rfl, rfl, rfl⟩ := h
        unfold tcpSend
        split
        · refine ⟨inv_finish.2 ⟨inv_set hi ⟨hgd.1, ?_⟩, hi.2⟩, [], [], .nil, (by rintro n ⟨⟩), fun k => ?_⟩
          · intro y hy
            simp only [List.mem_append, List.mem_singleton] at hy
            rcases hy with hy | rfl
            · exact hgd.2 y hy
            · exact ⟨hg, by omega⟩
          · have hc := count_flatMap_set modOwed k st.mods i d { d with inbox := d.inbox ++ [m] } hd
            simp only [modOwed, List.count_append, List.flatMap_append, List.flatMap_cons, List.flatMap_nil, List.append_nil] at hc
            rw [owed_finish]; simp only [owed, List.count_append, List.count_nil]
            omega
        · refine ⟨inv_finish.2 ⟨inv_set hi hgd, hi.2⟩, [], [], .nil, (by rintro n ⟨⟩), fun k => ?_⟩
          have hc := count_flatMap_set modOwed k st.mods i d d hd
          rw [owed_finish]; simp only [owed, List.count_append, List.count_nil]
          omega
  | ship i m x =>
    simp only [advance, Option.some.injEq, Prod.mk.injEq] at h
    obtain ⟨rfl, rfl, rfl⟩ := h
    refine ⟨inv_finish.2 hi, [], [], ?_, (by rintro n ⟨⟩), fun k => by simp [owed_finish]⟩
    split <;> exact .nil
  | tell m o handed =>
    obtain ⟨hg, own, hm, hc⟩ : _ ∧ _ := hk
    simp only [advance, Option.some.injEq, Prod.mk.injEq] at h
    obtain ⟨rfl, rfl, rfl⟩ := h
    refine ⟨inv_finish.2 ⟨hi.1, ?_, hi.2.2⟩, own, [], hm, (by rintro n ⟨⟩), fun k => ?_⟩
    · intro y hy
      rcases List.mem_append.1 hy with hy | hy
      · exact hi.2.1 y hy
      · exact hg y hy
    · have := hc k
      rw [owed_finish]; simp only [owed, List.flatMap_append, List.count_append, List.count_nil]
      omega
  | look i b h0 fuel bn clock =>
    obtain ⟨n, hn⟩ : ∃ n, h0.entity = b.take n := hk
    simp only [advance] at h
    split at h
    · cases h
    · rename_i d hd
      have hgd := hi.1 d (List.mem_of_getElem? hd)
      split at h
      · rename_i q hgen
        have ht : q = d.table := by
          unfold genAnswerHeaderAndRemove at hgen
          split at hgen <;> simp only [Prod.mk.injEq, reduceCtorEq, false_and, true_and] at hgen
          exact hgen.symm
        subst ht
        simp only [Option.some.injEq, Prod.mk.injEq] at h
        obtain ⟨rfl, rfl, rfl⟩ := h
        refine ⟨⟨inv_set hi hgd, hi.2⟩, [], [], .nil, (by rintro n ⟨⟩; intro h; cases h), fun k => ?_⟩
        have hc := count_flatMap_set modOwed k st.mods i d { d with head := h0 } hd
        simp only [modOwed, List.count_append] at hc
        simp only [owed, List.count_append, List.count_nil]
        omega
      · rename_i p q hgen
        unfold genAnswerHeaderAndRemove at hgen
        split at hgen
        · simp at hgen
        · rename_i a p' hs
          simp only [Prod.mk.injEq, Option.some.injEq] at hgen
          obtain ⟨rfl, rfl⟩ := hgen
          obtain ⟨h1, h2⟩ := Bst.Tree.search_some hs
          have h3 := (compare_eq_zero h2).1
          obtain ⟨gt, gp⟩ := good_delete hgd.1 h1
          simp only [Option.some.injEq, Prod.mk.injEq] at h
          obtain ⟨rfl, rfl, rfl⟩ := h
          refine ⟨⟨inv_set hi ⟨gt, hgd.2⟩, hi.2⟩, [], pend p', .nil, ?_, fun k => ?_⟩
          · rintro n' ⟨⟩
            intro _
            refine ⟨fun a ha => gp a ha, p'.id.toNat, rfl, fun i hi => ?_⟩
            dsimp only at hi
            have h4 : 2 ≤ h0.entity.length := by
              match hl : h0.entity, hi with
              | x :: y :: t, _ => simp
            rw [idOf_ident hi, ← h3]
            simp only [entry]
            refine congrArg UInt16.toNat (ident_take (a := h0.entity) (b := b) ?_)
            rw [hn, List.length_take] at h4
            rw [hn, List.take_take, Nat.min_eq_left (by omega)]
          · have hw := count_flatMap_perm pend k (delete_contents hgd.1.1 h1)
            have hc := count_flatMap_set modOwed k st.mods i d
              { d with table := d.table.delete a, head := { p'.client with entity := h0.entity, edns := h0.edns } } hd
            simp only [List.flatMap_cons, List.count_append] at hw
            simp only [modOwed, List.count_append] at hc
            simp only [owed, List.count_append, List.count_nil]
            omega
  | learn b h0 fuel bn clock first =>
    simp only [advance] at h
    split at h
    · cases h
    · split at h
      · cases h
      · simp only [Option.some.injEq, Prod.mk.injEq] at h
        obtain ⟨rfl, rfl, rfl⟩ := h
        refine ⟨hi, [], l, .nil, ?_, fun k => by simp [owed]⟩
        intro n hn
        split at hn
        · rename_i hf
          cases hn
          exact hk hf
        · cases hn
  | answer h0 =>
    obtain ⟨hg, id, rfl, hid⟩ : AnswerOk h0 l := hk
    simp only [advance, Option.some.injEq, Prod.mk.injEq] at h
    obtain ⟨rfl, rfl, rfl⟩ := h
    exact ⟨hi, lab h0 id, [], post_matched hg id hid, (by rintro n ⟨⟩), fun k => by simp only [owed, List.count_nil]; omega⟩

/-- The tasks, each with what is owed with it. -/
def Owes [DecidableEq Addr] (s : Sys Addr) (L : List ((Thread × Task Addr) × List (Lab Addr))) : Prop :=
  Inv s.st ∧ L.map (·.1) = s.tasks ∧ ∀ p ∈ L, TaskOk p.1.2 p.2

def total (L : List ((Thread × Task Addr) × List (Lab Addr))) : List (Lab Addr) := L.flatMap (·.2)

theorem owes_with [DecidableEq Addr] {s : Sys Addr} {L : List ((Thread × Task Addr) × List (Lab Addr))} (h : Owes s L) {st : St Addr} (hi : Inv st)
    (t : Thread) {k : Task Addr} {l : List (Lab Addr)} (hk : TaskOk k l) : Owes (s.with st t k) (L ++ [((t, k), l)]) := by
  refine ⟨hi, by simp [Sys.with, h.2.1], fun p hp => ?_⟩
  rcases List.mem_append.1 hp with hp | hp
  · exact h.2.2 p hp
  · cases List.mem_singleton.1 hp; exact hk

theorem owes_st [DecidableEq Addr] {s : Sys Addr} {L : List ((Thread × Task Addr) × List (Lab Addr))} (h : Owes s L) {st : St Addr} (hi : Inv st) :
    Owes { s with st := st } L := ⟨hi, h.2.1, h.2.2⟩

/-- A beginning. -/
theorem start_balance [DecidableEq Addr] {e : Env} {s s' : Sys Addr} {ev : Forwarder.Ev Addr} {acts : List (Act Addr)}
    {L : List ((Thread × Task Addr) × List (Lab Addr))} (hs : Owes s L) (ha : Accepted ev) (h : start e s ev = some (s', acts)) :
    ∃ own L', Owes s' L' ∧ Matched own (replies acts) ∧
      ∀ k, own.count k + (owed s'.st).count k + (total L').count k ≤ (owed s.st).count k + (total L).count k + (queryOf ev).count k := by
  have hi := hs.1
  have coarse : ∀ {ev : Forwarder.Ev Addr}, Accepted ev → (Forwarder.step e s.st ev).map (fun r => (({ s with st := r.1 } : Sys Addr), r.2)) = some (s', acts) →
      ∃ own L', Owes s' L' ∧ Matched own (replies acts) ∧
      ∀ k, own.count k + (owed s'.st).count k + (total L').count k ≤ (owed s.st).count k + (total L).count k + (queryOf ev).count k := by
    intro ev ha h
    cases hf : Forwarder.step e s.st ev with
    | none => rw [hf] at h; cases h
    | some r =>
      rw [hf] at h
      simp only [Option.map_some, Option.some.injEq, Prod.mk.injEq] at h
      obtain ⟨rfl, rfl⟩ := h
      obtain ⟨i1, own, m1, c1⟩ := step_balance (acts := r.2) hi ha hf
      refine ⟨own, L, owes_st hs i1, m1, fun k => ?_⟩
      have := c1 k
      dsimp only
      omega
  cases ev with
  | udpQuery sock addr agent b len x =>
    simp only [start] at h
    split at h
    · cases h
    · split at h
      · cases h
      · rename_i c m hf
        have hc := ha _ _ _ hf
        subst hc
        obtain ⟨e1, e2, e3, e4, e5, e6⟩ := fill_zero hf
        obtain ⟨h12, h2⟩ := accepted_head e4 e5 e6
        simp only [Option.some.injEq, Prod.mk.injEq] at h
        obtain ⟨rfl, rfl⟩ := h
        have hl : headLab m = queryOf (.udpQuery sock addr agent b len x) := by
          unfold headLab lab queryOf
          rw [e1, e2]
          dsimp only
          rw [← e4, idOf_some (by omega)]
        refine ⟨[], _, owes_with hs hi .udp (k := .filter b m x) (l := headLab m) ⟨rfl, fun a _ => e3, h12, h2⟩, .nil, fun k => ?_⟩
        simp only [total, List.flatMap_append, List.flatMap_cons, List.flatMap_nil, List.append_nil, List.count_append, List.count_nil, hl, Sys.with]
        omega
  | tcpQuery sock agent b len x =>
    simp only [start] at h
    split at h
    · cases h
    · split at h
      · cases h
      · rename_i c m hf
        have hc := ha _ _ _ hf
        subst hc
        obtain ⟨e1, e2, e3, e4, e5, e6⟩ := fill_zero hf
        obtain ⟨h12, h2⟩ := accepted_head e4 e5 e6
        simp only [Option.some.injEq, Prod.mk.injEq] at h
        obtain ⟨rfl, rfl⟩ := h
        have hl : headLab m = queryOf (.tcpQuery sock agent b len x) := by
          unfold headLab lab queryOf
          rw [e1, e2]
          dsimp only
          rw [← e4, idOf_some (by omega)]
        refine ⟨[], _, owes_with hs hi .tcp (k := .filter b m x) (l := headLab m) ⟨rfl, fun a _ => e3, h12, h2⟩, .nil, fun k => ?_⟩
        simp only [total, List.flatMap_append, List.flatMap_cons, List.flatMap_nil, List.append_nil, List.count_append, List.count_nil, hl, Sys.with]
        omega
  | response i b len fuel bn clock =>
    simp only [start] at h
    split at h
    · cases h
    · split at h
      · cases h
      · rename_i d hd
        have hgd := hi.1 d (List.mem_of_getElem? hd)
        split at h
        · cases h
        · rename_i h0 hf
          split at h
          · cases h
          · rename_i v b' hmisc
            have hv : Inv { s.st with mods := s.st.mods.set i { d with head := { h0 with entity := b'.take h0.entity.length } } } :=
              ⟨inv_set hi hgd, hi.2⟩
            have hc : ∀ k, (owed { s.st with mods := s.st.mods.set i { d with head := { h0 with entity := b'.take h0.entity.length } } }).count k = (owed s.st).count k := by
              intro k
              have hc := count_flatMap_set modOwed k s.st.mods i d { d with head := { h0 with entity := b'.take h0.entity.length } } hd
              simp only [modOwed, List.count_append] at hc
              simp only [owed, List.count_append]
              omega
            split at h
            · simp only [Option.some.injEq, Prod.mk.injEq] at h
              obtain ⟨rfl, rfl⟩ := h
              exact ⟨[], L, owes_st hs hv, .nil, fun k =>
                  Nat.le_trans (Nat.add_le_add_right (Nat.add_le_add_left (Nat.le_of_eq (hc k)) _) _) (by simp only [List.count_nil]; omega)⟩
            · split at h
              · simp only [Option.some.injEq, Prod.mk.injEq] at h
                obtain ⟨rfl, rfl⟩ := h
                exact ⟨[], L, owes_st hs hv, .nil, fun k =>
                  Nat.le_trans (Nat.add_le_add_right (Nat.add_le_add_left (Nat.le_of_eq (hc k)) _) _) (by simp only [List.count_nil]; omega)⟩
              · simp only [Option.some.injEq, Prod.mk.injEq] at h
                obtain ⟨rfl, rfl⟩ := h
                refine ⟨[], _, owes_with hs hv (.group i) (l := []) ⟨_, rfl⟩, .nil, fun k => ?_⟩
                refine Nat.le_trans (Nat.add_le_add_right (Nat.add_le_add_left (Nat.le_of_eq (hc k)) _) _) ?_
                simp only [total, List.flatMap_append, List.flatMap_cons, List.flatMap_nil, List.append_nil, List.count_nil]
                omega
  | innerTake k cap sock rnd old x =>
    simp only [start] at h
    split at h
    · cases h
    · split at h
      · cases h
      · rename_i m l hp
        have hpm := pick_perm hp
        have hgm := hi.2.1 m (hpm.mem_iff.2 List.mem_cons_self)
        have hl : ∀ y ∈ l, Good y ∧ 2 ≤ y.entity.length := fun y hy => hi.2.1 y (hpm.mem_iff.2 (List.mem_cons_of_mem _ hy))
        split at h
        · cases h
        · rename_i lp hin
          simp only [Option.some.injEq, Prod.mk.injEq] at h
          obtain ⟨rfl, rfl⟩ := h
          have := inner_none hin
          subst this
          refine ⟨[], L, owes_st hs ⟨hi.1, hl, hi.2.2⟩, .nil, fun k => ?_⟩
          have hib := count_flatMap_perm headLab k hpm
          simp only [List.flatMap_cons, List.count_append] at hib
          simp only [owed, List.count_append, List.count_nil]
          omega
        · rename_i lp q hin
          simp only [Option.some.injEq, Prod.mk.injEq] at h
          obtain ⟨rfl, rfl⟩ := h
          obtain ⟨t1, ⟨a, t2⟩, t3⟩ := inner_query hin
          have hw : (waiting lp.table).Perm (⟨ident m.entity, m.hash, m.domain, m.type, m, x.now⟩ :: waiting s.st.loop.table) := by
            rw [t1]; unfold waiting Bst.State.add
            exact (Bst.Tree.toList_insert _ _ _ _).map _
          have hgt : GoodTable lp.table := by
            refine ⟨by rw [t1]; exact (Bst.inv_add hi.2.2.1 _).1, fun p hp => ?_⟩
            rcases List.mem_cons.1 (hw.mem_iff.1 hp) with rfl | hp
            · exact hgm.1
            · exact hi.2.2.2 p hp
          have h2 : headLab q = [] := by unfold headLab lab; rw [t2]
          refine ⟨[], _, owes_with hs (st := { s.st with inner := l, loop := lp }) ⟨hi.1, hl, hgt⟩ .alias (l := headLab q)
            ⟨rfl, (fun c hc => by rw [t2] at hc; cases hc), t3, (by rw [List.take_append_of_le_length (by omega)])⟩, .nil, fun k => ?_⟩
          have hib := count_flatMap_perm headLab k hpm
          have hlw := count_flatMap_perm pend k hw
          have hpe : pend ⟨ident m.entity, m.hash, m.domain, m.type, m, x.now⟩ = headLab m := rfl
          simp only [List.flatMap_cons, List.count_append, hpe] at hib hlw
          simp only [total, Sys.with, owed, List.flatMap_append, List.flatMap_cons, List.flatMap_nil, List.append_nil, List.count_append, List.count_nil, h2]
          omega
  | outerTake k cap rest header fuel =>
    simp only [start] at h
    split at h
    · cases h
    · split at h
      · cases h
      · rename_i m l hp
        split at h
        · split at h
          · cases h
          · rename_i lp hout
            simp only [Option.some.injEq, Prod.mk.injEq] at h
            obtain ⟨rfl, rfl⟩ := h
            rcases outer_spec hout with ⟨rfl, _⟩ | ⟨a, p, h1, h2, _⟩
            · exact ⟨[], L, owes_st hs hi, .nil, fun k => by simp [owed]⟩
            · obtain ⟨gt, _⟩ := good_delete hi.2.2 h1
              refine ⟨[], L, owes_st hs ⟨hi.1, hi.2.1, by rw [h2]; exact gt⟩, .nil, fun k => ?_⟩
              have hw := count_flatMap_perm pend k (delete_contents hi.2.2.1 h1)
              simp only [List.flatMap_cons, List.count_append] at hw
              simp only [owed, List.count_append, List.count_nil, h2]
              omega
          · rename_i lp r hout
            simp only [Option.some.injEq, Prod.mk.injEq] at h
            obtain ⟨rfl, rfl⟩ := h
            rcases outer_spec hout with ⟨_, h0⟩ | ⟨a, p, h1, h2, h3⟩
            · cases h0
            · obtain ⟨gt, gp⟩ := good_delete hi.2.2 h1
              obtain ⟨f1, f2, f3, f4⟩ := h3 r rfl
              refine ⟨[], _, owes_with hs (st := { s.st with outer := l, loop := lp }) ⟨hi.1, hi.2.1, by rw [h2]; exact gt⟩ .alias (l := pend p)
                ⟨(fun a ha => by rw [f3]; exact gp a (f1 ▸ ha)), p.id.toNat, (count_lab_eq f1 f2 _).symm, f4⟩, .nil, fun k => ?_⟩
              have hw := count_flatMap_perm pend k (delete_contents hi.2.2.1 h1)
              simp only [List.flatMap_cons, List.count_append] at hw
              simp only [total, Sys.with, owed, List.flatMap_append, List.flatMap_cons, List.flatMap_nil, List.append_nil, List.count_append, List.count_nil, h2]
              omega
        · cases h
  | loopSweep now =>
    simp only [start] at h
    split at h
    · cases h
    · exact coarse ha h
  | take i k now rest =>
    simp only [start] at h
    split at h
    · cases h
    · exact coarse ha h
  | lose i k => exact coarse ha h
  | sweep i now => exact coarse ha h
  | cacheSweep now => exact coarse ha h
  | innerLose k => exact coarse ha h
  | outerLose k => exact coarse ha h
  | reload protos head => exact coarse ha h
  | tcpOpen sock => exact coarse ha h

theorem map_eq_getElem? {α β : Type} {f : α → β} {l : List α} {r : List β} (h : l.map f = r) {i : Nat} {b : β} (hb : r[i]? = some b) :
    ∃ a, l[i]? = some a ∧ f a = b := by
  subst h
  simpa [List.getElem?_map, Option.map_eq_some_iff] using hb

/-- One step of the whole. -/
theorem step_balance [DecidableEq Addr] {e : Env} {s s' : Sys Addr} {ev : Ev Addr} {acts : List (Act Addr)}
    {L : List ((Thread × Task Addr) × List (Lab Addr))} (hs : Owes s L) (ha : ∀ q, ev = .begin q → Accepted q) (h : step e s ev = some (s', acts)) :
    ∃ own L', Owes s' L' ∧ Matched own (replies acts) ∧ ∀ k, own.count k + (owed s'.st).count k + (total L').count k ≤
      (owed s.st).count k + (total L).count k + (match ev with | .begin q => queryOf q | .go _ => []).count k := by
  cases ev with
  | begin q => exact start_balance hs (ha q rfl) h
  | go i =>
    simp only [step] at h
    split at h
    · cases h
    · rename_i t task ht
      obtain ⟨⟨⟨t', task'⟩, l⟩, hl, he⟩ := map_eq_getElem? hs.2.1 ht
      cases he
      have hok := hs.2.2 _ (List.mem_of_getElem? hl)
      split at h
      · cases h
      · rename_i st acts' hadv
        simp only [Option.some.injEq, Prod.mk.injEq] at h
        obtain ⟨rfl, rfl⟩ := h
        obtain ⟨hi, own, l', hm, _, hc⟩ := advance_balance hs.1 hok hadv
        refine ⟨own, L.eraseIdx i, ⟨hi, ?_, fun p hp => hs.2.2 p (List.mem_of_mem_eraseIdx hp)⟩, hm, fun k => ?_⟩
        · rw [← hs.2.1]; simp only [List.eraseIdx_eq_take_drop_succ, List.map_append, List.map_take, List.map_drop]
        · have := hc k
          have hp := count_flatMap_perm (fun x : (Thread × Task Addr) × List (Lab Addr) => x.2) k
            (pick_perm (l := L) (k := i) (a := ((t, task), l)) (l' := L.eraseIdx i) (by
              unfold pick; rw [hl, List.eraseIdx_eq_take_drop_succ]; rfl))
          simp only [List.flatMap_cons, List.count_append] at hp
          simp only [total, List.count_nil]
          dsimp only at this
          omega
      · rename_i st task' acts' hadv
        simp only [Option.some.injEq, Prod.mk.injEq] at h
        obtain ⟨rfl, rfl⟩ := h
        obtain ⟨hi, own, l', hm, hn, hc⟩ := advance_balance hs.1 hok hadv
        refine ⟨own, L.set i ((t, task'), l'), ⟨hi, by rw [List.map_set, hs.2.1], fun p hp => ?_⟩, hm, fun k => ?_⟩
        · rcases List.mem_or_eq_of_mem_set hp with hp | rfl
          · exact hs.2.2 p hp
          · exact hn _ rfl
        · have := hc k
          have hp := count_flatMap_set (·.2) k L i _ ((t, task'), l') hl
          simp only [total, List.count_nil]
          dsimp only at hp this
          omega

end Verif.Threads
