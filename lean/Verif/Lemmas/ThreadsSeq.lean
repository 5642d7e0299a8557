import Verif.Lemmas.Threads
import Verif.Spec.Threads
/-! A message may also be processed without a pause: what `Verif.Forwarder` does is among what the threads can do. -/

namespace Verif.Threads
open Msg MContext Pipeline HostsLoop Forwarder

variable {Addr : Type}

theorem run_append (l : List (Env × Ev Addr)) : ∀ {s s' s'' : Sys Addr} {a b : List (Act Addr)} {k : List (Env × Ev Addr)},
    run s l = some (s', a) → run s' k = some (s'', b) → run s (l ++ k) = some (s'', a ++ b) := by
  induction l with
  | nil =>
    intro s s' s'' a b k h h'
    simp only [run, Option.some.injEq, Prod.mk.injEq] at h
    obtain ⟨rfl, rfl⟩ := h
    exact h'
  | cons x l ih =>
    intro s s' s'' a b k h h'
    obtain ⟨e, ev⟩ := x
    simp only [run] at h
    split at h
    · cases h
    · rename_i s1 a1 h1
      split at h
      · cases h
      · rename_i s2 a2 h2
        simp only [Option.some.injEq, Prod.mk.injEq] at h
        obtain ⟨rfl, rfl⟩ := h
        simp only [List.cons_append, run, h1, ih h2 h', List.append_assoc]

/-- The only task runs for a number of steps. -/
def Goes (e : Env) (s : Sys Addr) (s' : Sys Addr) (acts : List (Act Addr)) : Prop :=
  ∃ n, run s (List.replicate n (e, .go 0)) = some (s', acts)

theorem goes_next {e : Env} {st st1 : St Addr} {t : Thread} {task task' : Task Addr} {s' : Sys Addr} {acts : List (Act Addr)}
    (h : advance e st t task = some (st1, some task', [])) (h' : Goes e ⟨st1, [(t, task')]⟩ s' acts) : Goes e ⟨st, [(t, task)]⟩ s' acts := by
  obtain ⟨n, hn⟩ := h'
  refine ⟨n + 1, ?_⟩
  rw [List.replicate_succ]
  simp [run, step, h, hn]

theorem goes_last {e : Env} {st st1 : St Addr} {t : Thread} {task : Task Addr} {acts : List (Act Addr)}
    (h : advance e st t task = some (st1, none, acts)) : Goes e ⟨st, [(t, task)]⟩ ⟨st1, []⟩ acts :=
  ⟨1, by simp [run, step, h, List.replicate]⟩

/-- `MMgr_Send` without a pause. -/
theorem goes_mgrSend {e : Env} {st st' : St Addr} {x : Luck} {b : List Byte} {m h : Head Addr} {acts : List (Act Addr)} (t : Thread)
    (hs : mgrSend e st x b m = some (st', h, acts)) : Goes e ⟨st, [(t, .filter b m x)]⟩ ⟨finish t h st', []⟩ acts := by
  unfold mgrSend Pipeline.decide at hs
  cases hf : Filter.filterOut e.filter e.fnm x.behindName m with
  | mk out o =>
    cases out with
    | true =>
      simp only [hf, Option.some.injEq, Prod.mk.injEq] at hs
      obtain ⟨rfl, rfl, rfl⟩ := hs
      exact goes_next (st1 := st) (task' := .tell m o []) (by simp only [advance, hf]) (goes_last (by simp only [advance, List.append_nil]))
    | false =>
      refine goes_next (st1 := st) (task' := .hosts b m x) (by simp only [advance, hf]) ?_
      simp only [hf] at hs
      cases hh : Hosts.hostsGet e.fnm e.goodIp e.hosts (b.drop m.entity.length) x.handOk m with
      | none => simp [hh] at hs
      | some r =>
        obtain ⟨code, o⟩ := r
        simp only [hh] at hs
        by_cases hz : code = 0
        · simp only [hz, if_pos, Option.some.injEq, Prod.mk.injEq] at hs
          obtain ⟨rfl, rfl, rfl⟩ := hs
          exact goes_next (st1 := st) (task' := .tell m (repliesOf o) (handedOf o)) (by simp only [advance, hh, hz, if_pos]) (goes_last (by simp only [advance]))
        · simp only [if_neg hz] at hs
          refine goes_next (st1 := st) (task' := .fetch b m x) (by simp only [advance, hh, if_neg hz]) ?_
          cases hc : (if e.cacheOn then DnsCache.fetch e.cache.cfg st.cache (b.drop m.entity.length) x.fuel x.now m else some (-792, [])) with
          | none => simp [hc] at hs
          | some r =>
            obtain ⟨code, o⟩ := r
            simp only [hc] at hs
            by_cases hz : code = 0
            · simp only [hz, if_pos, Option.some.injEq, Prod.mk.injEq] at hs
              obtain ⟨rfl, rfl, rfl⟩ := hs
              exact goes_next (st1 := st) (task' := .tell m o []) (by simp only [advance, hc, hz, if_pos]) (goes_last (by simp only [advance, List.append_nil]))
            · simp only [if_neg hz] at hs
              refine goes_next (st1 := st) (task' := .route b m x) (by simp only [advance, hc, if_neg hz]) ?_
              cases hr : Groups.route e.opts e.groups e.fnm x.behindName x.rnd (ident (m.entity ++ b.drop m.entity.length)).toNat
                  (isFromTcp m || requestTcp m) m.domain m.hash with
              | none =>
                simp only [hr, Option.some.injEq, Prod.mk.injEq] at hs
                obtain ⟨rfl, rfl, rfl⟩ := hs
                exact goes_last (by simp only [advance, hr])
              | some i =>
                simp only [hr] at hs
                refine goes_next (st1 := st) (task' := .pass (st.base + i) b m x) (by simp only [advance, hr]) ?_
                split at hs
                · cases hs
                · rename_i d hd
                  split at hs
                  · rename_i hp
                    split at hs
                    · cases hs
                    · rename_i m' d' hu
                      simp only [Option.some.injEq, Prod.mk.injEq] at hs
                      obtain ⟨rfl, rfl, rfl⟩ := hs
                      exact goes_next (st1 := { st with mods := st.mods.set (st.base + i) d' }) (task' := .ship (st.base + i) m' x) (by simp only [advance, hd, hp, hu]) (goes_last (by simp only [advance]))
                  · rename_i hp
                    simp only [Option.some.injEq, Prod.mk.injEq] at hs
                    obtain ⟨rfl, rfl, rfl⟩ := hs
                    exact goes_last (by simp only [advance, hd, hp])

/-- A beginning that is followed by the steps of its thread. -/
theorem begin_goes {e : Env} {st st' : St Addr} {ev : Forwarder.Ev Addr} {s1 : Sys Addr} {acts : List (Act Addr)}
    (h : start e ⟨st, []⟩ ev = some (s1, [])) (h' : Goes e s1 ⟨st', []⟩ acts) :
    ∃ l, (∀ x ∈ l, x.1 = e) ∧ asked l = queryOf ev ∧ (∀ q, Ev.begin q ∈ l.map (·.2) → q = ev) ∧ run ⟨st, []⟩ l = some (⟨st', []⟩, acts) := by
  obtain ⟨n, hn⟩ := h'
  refine ⟨(e, .begin ev) :: List.replicate n (e, .go 0), ?_, ?_, ?_, ?_⟩
  · intro x hx
    rcases List.mem_cons.1 hx with rfl | hx
    · rfl
    · rw [(List.mem_replicate.1 hx).2]
  · simp only [asked, List.flatMap_cons]
    rw [List.flatMap_eq_nil_iff.2, List.append_nil]
    intro x hx
    rw [(List.mem_replicate.1 hx).2]
  · intro q hq
    simp only [List.map_cons, List.map_replicate, List.mem_cons, List.mem_replicate] at hq
    rcases hq with hq | ⟨_, hq⟩
    · cases hq; rfl
    · cases hq
  · simp only [run, step, h, hn, List.nil_append]

theorem begin_only {e : Env} {st st' : St Addr} {ev : Forwarder.Ev Addr} {acts : List (Act Addr)}
    (h : start e ⟨st, []⟩ ev = some (⟨st', []⟩, acts)) :
    ∃ l, (∀ x ∈ l, x.1 = e) ∧ asked l = queryOf ev ∧ (∀ q, Ev.begin q ∈ l.map (·.2) → q = ev) ∧ run ⟨st, []⟩ l = some (⟨st', []⟩, acts) := by
  refine ⟨[(e, .begin ev)], ?_, ?_, ?_, ?_⟩
  · intro x hx; rw [List.mem_singleton.1 hx]
  · simp [asked]
  · intro q hq
    simp only [List.map_cons, List.map_nil, List.mem_singleton, Ev.begin.injEq] at hq
    exact hq
  · simp only [run, step, h, List.append_nil]

theorem not_busy (st : St Addr) (t : Thread) : busy ⟨st, []⟩ t = false := rfl

/-- What `Verif.Forwarder` does in one step, the threads can do. -/
theorem step_goes {e : Env} {st st' : St Addr} {ev : Forwarder.Ev Addr} {acts : List (Act Addr)} (h : Forwarder.step e st ev = some (st', acts)) :
    ∃ l, (∀ x ∈ l, x.1 = e) ∧ asked l = queryOf ev ∧ (∀ q, Ev.begin q ∈ l.map (·.2) → q = ev) ∧ run ⟨st, []⟩ l = some (⟨st', []⟩, acts) := by
  have whole : (start e ⟨st, []⟩ ev = (Forwarder.step e st ev).map fun r => (({ st := r.1, tasks := [] } : Sys Addr), r.2)) →
      ∃ l, (∀ x ∈ l, x.1 = e) ∧ asked l = queryOf ev ∧ (∀ q, Ev.begin q ∈ l.map (·.2) → q = ev) ∧ run ⟨st, []⟩ l = some (⟨st', []⟩, acts) := by
    intro hw
    exact begin_only (by rw [hw, h]; rfl)
  cases ev with
  | udpQuery sock addr agent b len x =>
    unfold Forwarder.step at h
    dsimp only at h
    split at h
    · cases h
    · rename_i c m hf
      split at h
      · cases h
      · rename_i st1 hd acts' hs
        simp only [Option.some.injEq, Prod.mk.injEq] at h
        obtain ⟨rfl, rfl⟩ := h
        exact begin_goes (s1 := ⟨st, [(.udp, .filter b m x)]⟩) (by simp [start, not_busy, hf, Sys.with]) (goes_mgrSend .udp hs)
  | tcpQuery sock agent b len x =>
    unfold Forwarder.step at h
    dsimp only at h
    split at h
    · cases h
    · rename_i c m hf
      split at h
      · cases h
      · rename_i st1 hd acts' hs
        simp only [Option.some.injEq, Prod.mk.injEq] at h
        obtain ⟨rfl, rfl⟩ := h
        exact begin_goes (s1 := ⟨st, [(.tcp, .filter b m x)]⟩) (by simp [start, not_busy, hf, Sys.with]) (goes_mgrSend .tcp hs)
  | response i b len fuel bn clock =>
    unfold Forwarder.step respond at h
    dsimp only at h
    split at h
    · cases h
    · rename_i d hd
      split at h
      · cases h
      · rename_i d' ops out hr
        split at h
        · cases h
        · rename_i c hc
          simp only [Option.some.injEq, Prod.mk.injEq] at h
          obtain ⟨rfl, rfl⟩ := h
          split at hr
          · cases hr
          · rename_i r h0 hf
            split at hr
            · cases hr
            · rename_i v b' hm
              have hset : ∀ d1 d2 : Module (Dest Addr), (st.mods.set i d1).set i d2 = st.mods.set i d2 := fun d1 d2 => List.set_set ..
              have hget : ∀ d1 : Module (Dest Addr), (st.mods.set i d1)[i]? = some d1 := fun d1 =>
                List.getElem?_set_self (List.getElem?_eq_some_iff.1 hd).1
              by_cases hv : v ≠ .nothing
              · simp only [if_pos hv, Option.some.injEq, Prod.mk.injEq] at hr
                obtain ⟨rfl, rfl, rfl⟩ := hr
                simp only [Cache.run, Option.some.injEq] at hc
                subst hc
                exact begin_only (by simp only [start, not_busy, hd, hf, hm, if_pos hv, List.flatMap_nil, List.append_nil]; simp)
              · simp only [if_neg hv] at hr
                by_cases hb : isBlocked e.ap { h0 with entity := b'.take h0.entity.length } = true
                · rw [if_pos hb] at hr
                  simp only [Option.some.injEq, Prod.mk.injEq] at hr
                  obtain ⟨rfl, rfl, rfl⟩ := hr
                  simp only [Cache.run, Option.some.injEq] at hc
                  subst hc
                  exact begin_only (by
                    simp only [start, not_busy, hd, hf, hm, if_neg hv, List.flatMap_nil, List.append_nil]
                    rw [if_pos hb]; simp)
                · rw [if_neg hb] at hr
                  refine begin_goes (s1 := ⟨{ st with mods := st.mods.set i { d with head := { h0 with entity := b'.take h0.entity.length } } },
                    [(.group i, .look i b' { h0 with entity := b'.take h0.entity.length } fuel bn clock)]⟩) ?_ ?_
                  · simp only [start, not_busy, hd, hf, hm, if_neg hv]
                    rw [if_neg hb]; simp [Sys.with]
                  · generalize hh : ({ h0 with entity := b'.take h0.entity.length } : Head Addr) = hx at hr
                    split at hr
                    · rename_i q hgen
                      split at hr
                      · cases hr
                      · rename_i ops' hl
                        simp only [Option.some.injEq, Prod.mk.injEq] at hr
                        obtain ⟨rfl, rfl, rfl⟩ := hr
                        refine goes_next (st1 := { st with mods := st.mods.set i { d with table := q, head := hx } }) (task' := .learn b' hx fuel bn clock false) ?_ ?_
                        · simp only [advance, hget, hset]; rw [hgen]
                        · have hl : Pipeline.learn e b' hx.entity.length fuel hx.domain bn clock false = some ops' := by rw [← hh]; exact hl
                          exact goes_last (by simp only [advance, hl, hc, List.flatMap_nil, List.append_nil]; rfl)
                    · rename_i p q hgen
                      split at hr
                      · cases hr
                      · rename_i ops' hl
                        simp only [Option.some.injEq, Prod.mk.injEq] at hr
                        obtain ⟨rfl, rfl, rfl⟩ := hr
                        refine goes_next (st1 := { st with mods := st.mods.set i { d with table := q, head := { p.client with entity := hx.entity, edns := hx.edns } } })
                          (task' := .learn b' { p.client with entity := hx.entity, edns := hx.edns } fuel bn clock true) ?_ ?_
                        · simp only [advance, hget, hset]; rw [hgen]
                        · refine goes_next (st1 := { st with mods := st.mods.set i { d with table := q, head := { p.client with entity := hx.entity, edns := hx.edns } }, cache := c })
                            (task' := .answer { p.client with entity := hx.entity, edns := hx.edns }) ?_ ?_
                          · have hl : Pipeline.learn e b' hx.entity.length fuel p.client.domain bn clock true = some ops' := by rw [← hh]; exact hl
                            simp only [advance, hl, hc]; rfl
                          · have he : b'.take h0.entity.length = hx.entity := by rw [← hh]
                            have he' : h0.edns = hx.edns := by rw [← hh]
                            exact goes_last (by simp only [advance, List.flatMap_cons, List.flatMap_nil, List.append_nil, he, he'])
  | innerTake k cap sock rnd old x =>
    unfold Forwarder.step at h
    dsimp only at h
    split at h
    · cases h
    · rename_i m l hp
      split at h
      · cases h
      · rename_i lp hin
        simp only [Option.some.injEq, Prod.mk.injEq] at h
        obtain ⟨rfl, rfl⟩ := h
        exact begin_only (by simp [start, not_busy, hp, hin])
      · rename_i lp q hin
        split at h
        · cases h
        · rename_i st1 hd acts' hs
          simp only [Option.some.injEq, Prod.mk.injEq] at h
          obtain ⟨rfl, rfl⟩ := h
          exact begin_goes (s1 := ⟨{ st with inner := l, loop := lp }, [(.alias, .filter (q.entity ++ List.replicate (cap - q.entity.length) 0) q x)]⟩)
            (by simp [start, not_busy, hp, hin, Sys.with]) (goes_mgrSend .alias hs)
  | outerTake k cap rest header fuel =>
    unfold Forwarder.step at h
    dsimp only at h
    split at h
    · cases h
    · rename_i m l hp
      split at h
      · rename_i p t hb
        split at h
        · cases h
        · rename_i lp hout
          simp only [Option.some.injEq, Prod.mk.injEq] at h
          obtain ⟨rfl, rfl⟩ := h
          exact begin_only (by simp [start, not_busy, hp, hb, hout])
        · rename_i lp r hout
          simp only [Option.some.injEq, Prod.mk.injEq] at h
          obtain ⟨rfl, rfl⟩ := h
          exact begin_goes (s1 := ⟨{ st with outer := l, loop := lp }, [(.alias, .answer r)]⟩) (by simp [start, not_busy, hp, hb, hout, Sys.with])
            (goes_last (by simp only [advance]))
      · cases h
  | loopSweep now => exact whole (by simp [start, not_busy])
  | take i k now rest => exact whole (by simp [start, not_busy])
  | lose i k => exact whole rfl
  | sweep i now => exact whole rfl
  | cacheSweep now => exact whole rfl
  | innerLose k => exact whole rfl
  | outerLose k => exact whole rfl
  | reload protos head => exact whole rfl
  | tcpOpen sock => exact whole rfl

end Verif.Threads
