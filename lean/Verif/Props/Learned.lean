import Verif.Props.KnownAgain
/-! C135: what a server answers is known afterwards. -/

namespace Verif.Cache
open Spec

theorem first_add {key data : List Byte} : ∀ {ops : List Op} {ttl : Nat} {t : Int}, Op.add key data ttl t ∈ ops →
    ∃ o1 ttl' t' o2, ops = o1 ++ Op.add key data ttl' t' :: o2 ∧ ∀ ttl t, Op.add key data ttl t ∉ o1 := by
  intro ops
  induction ops with
  | nil => intro ttl t h; cases h
  | cons o os ih =>
    intro ttl t h
    by_cases ho : ∃ ttl' t', o = Op.add key data ttl' t'
    · obtain ⟨ttl', t', rfl⟩ := ho
      exact ⟨[], ttl', t', os, rfl, by simp⟩
    · rcases List.mem_cons.1 h with h | h
      · exact absurd ⟨ttl, t, h.symm⟩ ho
      · obtain ⟨o1, ttl', t', o2, h1, h2⟩ := ih h
        refine ⟨o :: o1, ttl', t', o2, by rw [h1]; rfl, ?_⟩
        intro a b hm
        rcases List.mem_cons.1 hm with hm | hm
        · exact ho ⟨a, b, hm.symm⟩
        · exact h2 a b hm

/-- A record of new data is served after it and others were stored, if there is room for all. -/
theorem fresh_known {cfg : Cfg} {ops o1 o2 : List Op} {st st' : St} {key data : List Byte} {ttl : Nat} {t : Int}
    (ha : Area cfg) (wf : ∀ o ∈ ops ++ o1, Wf o) (wf2 : ∀ o ∈ o2, Wf o) (h : After cfg ops st) (hk : (0 : Byte) ∉ key) (ht : ttl < 4294967296) (h0 : ttl ≠ 0)
    (hp : cfg.parallel = false) (hi : cfg.ignoreTTL = false) (hr : run cfg st (o1 ++ Op.add key data ttl t :: o2) = some st')
    (hsw : ∀ s, Op.sweep s ∉ o2) (hroom : cfg.hdr + 4 * cfg.nslots + total (ops ++ o1) + cost (.add key data ttl t) ≤ cfg.size)
    (hd : ∀ d ttl' t', Op.add key d ttl' t' ∈ ops ++ o1 → ¬ d <+: data ∧ ¬ data <+: d) :
    ∃ as, answers cfg st' key t = some as ∧ (data, ttl) ∈ as := by
  have hc := cfgOk_of_area ha
  rw [run_append] at hr
  obtain ⟨st1, r1, hr⟩ := Option.bind_eq_some_iff.1 hr
  have haf : After cfg (ops ++ o1) st1 := by
    obtain ⟨s0, h⟩ := h
    exact ⟨s0, by rw [run_append, h]; exact r1⟩
  obtain ⟨es, inv, ho, hb⟩ := after_inv ha wf haf
  obtain ⟨st2, out, e, r⟩ := addItem_ok hc inv (data := data) hk ttl t
  have hstep : step cfg st1 (.add key data ttl t) = some st2 := by unfold step; dsimp only; rw [e]; rfl
  have hr2 : run cfg st2 o2 = some st' := by simpa only [run, hstep] using hr
  have hserved : ∃ as, answers cfg st2 key t = some as ∧ (data, ttl) ∈ as := by
    cases r with
    | duplicate e' he' hk' hf' hd' =>
      obtain ⟨t0, n0, h1, h2, _, h4⟩ := ho e' he'
      subst hk'
      have := hd _ _ _ h1
      rcases hd' with h' | h'
      · exact absurd h' this.2
      · exact absurd h' this.1
    | zeroTTL h => exact absurd h h0
    | noRoom _ inv' _ _ _ _ _ hr =>
      exfalso
      simp only [cost] at hroom
      unfold roundUp at hr
      simp only [List.length_append, List.length_cons] at hr
      rw [show key.length + (data.length + 1) + 1 + 15 = key.length + data.length + 2 + 15 from by omega] at hr
      omega
    | stored _ i inv' ht' hd' hin hg => exact accepted_served ha wf haf hk ht hp e
  obtain ⟨as, a1, a2⟩ := hserved
  have haf2 : After cfg ((ops ++ o1) ++ [.add key data ttl t]) st2 := by
    obtain ⟨s0, h⟩ := haf
    exact ⟨s0, by rw [run_append, h]; show run cfg st1 _ = _; simp only [run, hstep]⟩
  have wf3 : ∀ o ∈ (ops ++ o1) ++ [Op.add key data ttl t], Wf o := by
    intro o ho
    rcases List.mem_append.1 ho with ho | ho
    · exact wf o ho
    · rw [List.mem_singleton.1 ho]; exact ⟨hk, ht⟩
  obtain ⟨as', r', b1, b2, b3⟩ := stays (now := t) ha wf3 wf2 haf2 hk hi a1 a2 hr2 (.inl hp) (fun s hs => absurd hs (hsw s)) (by omega) (by omega)
  have : r' = ttl := by omega
  subst this
  exact ⟨as', b1, b2⟩

end Verif.Cache

namespace Verif.Forwarder
open Msg MContext Pipeline HostsLoop Message Name Keeps DnsCache DnsCache.Spec Cache.Spec

variable {Addr : Type}

theorem respond_first {e : Env} (hlists : e.lists = none) {r : Message.Msg} {qn : Question} {ls : List (List Byte)} {tail : List Byte} (hr : Answer r ls tail) (h1 : r.qs = [qn])
    {fuel : Nat} {bn : List Byte} {clock : Nat → Int} {d d' : Module (Dest Addr)} {ops : List Cache.Op} {out : List (Head Addr)}
    (h : respond e (r.bytes ++ tail) r.bytes.length fuel bn clock d = some (d', ops, out)) (ho : out ≠ []) :
    ∃ question, learn e (r.bytes ++ tail) r.bytes.length fuel question bn clock true = some ops := by
  unfold respond at h
  split at h
  · cases h
  · rename_i c m hf
    obtain ⟨_, _, _, _, _, _, _, _, f8⟩ := fill_full hr h1 hf
    simp only [misc, hlists, f8] at h
    split at h
    · cases h; exact absurd rfl ho
    · split at h
      · cases h; exact absurd rfl ho
      · split at h
        · split at h
          · cases h
          · cases h; exact absurd rfl ho
        · split at h
          · cases h
          · rename_i hl
            cases h
            rw [List.take_left] at hl
            exact ⟨_, hl⟩

/-- C135, the beginning: if a response is passed on to the client that asked, and it has a record that was not in the cache before (and no other one of the same name and
type whose data begin like it), then the program knows this record, for as long as the rules say, if its cache has room for all that was handed to it so far.  Missing: lists
of addresses to be replaced, responses with several questions, parallel queries, records handed over before. -/
theorem learned_partial {e : Env} (ha : Area e.cache.cfg) (hi : e.cache.cfg.ignoreTTL = false) (hpar : e.cache.cfg.parallel = false) (hon : e.cacheOn = true) (hlists : e.lists = none)
    {st st' : St Addr} {evs : List Event} {ops : List Cache.Op} (hh : history e.cache evs = some ops) (haf : Cache.After e.cache.cfg ops st.cache)
    {r : Message.Msg} {qn : Question} {ls : List (List Byte)} {tail bn : List Byte} {fs : List Fact} {f : Fact} {i fuel : Nat} {clock : Nat → Int} {acts : List (Act Addr)}
    (hr : Answer r ls tail) (h1 : r.qs = [qn]) (hresp : Response r fs) (hf : f ∈ fs) (hsmall : Small f)
    (hone : ∀ g ∈ fs, g.owner = f.owner → g.type = f.type → g = f ∨ (¬ form g.value <+: form f.value ∧ ¬ form f.value <+: form g.value))
    (hnew : ∀ d ttl t, Handed ops (keyOf (text f.owner) f.type 1) d ttl t → ¬ d <+: form f.value ∧ ¬ form f.value <+: d)
    (hroom : ∀ question all, history e.cache (evs ++ [.response (r.bytes ++ tail) r.bytes.length fuel question bn clock true]) = some all →
      e.cache.cfg.hdr + 4 * e.cache.cfg.nslots + total all ≤ e.cache.cfg.size)
    (h : step e st (.response i (r.bytes ++ tail) r.bytes.length fuel bn clock) = some (st', acts)) (hans : acts ≠ []) :
    ∃ j question, let L := CacheTtl.effective e.cache.rules e.cache.fnm question bn (keyOf (text f.owner) f.type 1) f.ttl
      L ≠ 0 → Known e.cache st' f.owner f.type (clock j) L := by
  simp only [step] at h
  split at h
  · cases h
  · split at h
    · cases h
    · rename_i hres
      split at h
      · cases h
      · rename_i hrun
        cases h
        obtain ⟨question, hl⟩ := respond_first hlists hr h1 hres (by rintro rfl; exact hans rfl)
        obtain ⟨w1, w2⟩ := learn_adds hl
        simp only [learn, hon, if_true] at hl
        obtain ⟨k1, k2⟩ := (addOps_eq hresp hl).2 (.inl rfl)
        obtain ⟨j0, hj0⟩ := k2 f hf hsmall
        obtain ⟨o1, ttl', t', o2, e1, e2⟩ := Cache.first_add hj0
        subst e1
        obtain ⟨g, g1, g2, j, g3⟩ := k1 (.add (factKey f) (form f.value) ttl' t') (by simp)
        have hkey : ∀ {g : Fact}, g ∈ fs → factKey f = factKey g → g.owner = f.owner ∧ g.type = f.type := by
          intro g hg hk
          obtain ⟨hc, p, x, hx⟩ := says_reads hresp.2.2 g hg
          obtain ⟨hc', p', x', hx'⟩ := says_reads hresp.2.2 f hf
          exact factKey_eq (t := f.type) hx'.owner.1 (by unfold Cached at hc'; omega) hc hx.owner.1 hk
        simp only [opOf, Cache.Op.add.injEq] at g3
        obtain ⟨g3, g4, g5, g6⟩ := g3
        have hgf : g = f := by
          obtain ⟨a1, a2⟩ := hkey g1 g3
          rcases hone g g1 a1 a2 with h | h
          · exact h
          · rw [g4] at h; exact absurd List.prefix_rfl h.1
        subst hgf
        have hall := history_snoc (ev := .response (r.bytes ++ tail) r.bytes.length fuel question bn clock true) (s := e.cache) hl hh
        refine ⟨j, question, fun h0 => ?_⟩
        have hw := w1 (.add (factKey g) (form g.value) ttl' t') (by simp)
        subst g5 g6
        have x1 : ∀ o ∈ ops ++ o1, Wf o := by
          intro o ho
          rcases List.mem_append.1 ho with ho | ho
          · exact history_wf hh o ho
          · exact w1 o (by simp [ho])
        have x2 := hroom question _ hall
        have x3 : ∀ d ttl t, Cache.Op.add (factKey g) d ttl t ∈ ops ++ o1 → ¬ d <+: form g.value ∧ ¬ form g.value <+: d := by
          intro d ttl t hm
          rcases List.mem_append.1 hm with hm | hm
          · exact hnew d ttl t hm
          · obtain ⟨g', b1, b2, j', b3⟩ := k1 (.add (factKey g) d ttl t) (by simp [hm])
            simp only [opOf, Cache.Op.add.injEq] at b3
            obtain ⟨a1, a2⟩ := hkey b1 b3.1
            rcases hone g' b1 a1 a2 with h | h
            · subst h
              rw [b3.2.1] at hm
              exact absurd hm (e2 _ _)
            · rw [b3.2.1]; exact h
        obtain ⟨as, m1, m2⟩ := Cache.fresh_known (o1 := o1) (o2 := o2) ha x1 (fun o ho => w1 o (by simp [ho])) haf hw.1 hw.2 h0 hpar hi hrun
          (fun s hs => w2 s (by simp [hs])) (by
            simp only [total, List.map_append, List.map_cons, List.sum_append, List.sum_cons] at x2 ⊢
            omega) x3
        exact ⟨as, _, m1, m2⟩

/-! ### a concrete case -/

theorem udpQuery_cache {e : Env} {st st' : St Addr} {sock len : Nat} {addr : Addr} {agent b : List Byte} {x : Luck} {acts : List (Act Addr)}
    (h : step e st (.udpQuery sock addr agent b len x) = some (st', acts)) : st'.cache = st.cache := by
  simp only [step] at h
  split at h
  · cases h
  · split at h
    · cases h
    · rename_i hm; cases h; have := mgrSend_cache hm; exact this

theorem exS_recordOps (b : List Byte) (len fuel : Nat) (question bn : List Byte) (clock : Nat → Int) (c : Parser.Counts) : ∀ (n : Nat) (it : Parser.Itr),
    recordOps exS b len fuel question bn clock c n it = recordOps exS b len fuel [] bn clock c n it := by
  intro n
  induction n with
  | zero => intro it; rfl
  | succ n ih =>
    intro it
    simp only [recordOps, ih]
    rfl

def ln1 : St Nat := ((step pgEnv pg0 (pgAsk 8 kaQ.bytes)).getD (exSt, [])).1
def ln2 : St Nat := ((step pgEnv ln1 (serverSays 0 alReply.bytes)).getD (ln1, [])).1

/-- A server answers client 8: the address is known from now on, for sixty seconds. -/
example : Known exS ln2 ms 1 1001 60 := by
  have h : (step pgEnv ln1 (serverSays 0 alReply.bytes)).map (·.2) = some [.client (.udp 1 8 false alReply.bytes)] := by decide +kernel
  obtain ⟨r, h, h'⟩ := Option.map_eq_some_iff.1 h
  have e2 : ln2 = r.1 := by simp [ln2, h]
  have key := learned_partial (e := pgEnv) Cache.demo_area rfl rfl rfl rfl (evs := []) (ops := []) rfl
    (st := ln1) ⟨_, show some (Cache.St.init exS.cfg Cache.blank) = some ln1.cache from ?_⟩ (tail := List.replicate 200 0) alReply_ok rfl pgReply_says (List.mem_singleton.2 rfl)
    (by unfold Small; decide) (by intro g hg _ _; exact .inl (List.mem_singleton.1 hg)) (by intro d ttl t hm; cases hm) ?_ h (by rw [h']; simp)
  · obtain ⟨j, question, hk⟩ := key
    rw [e2]
    exact hk (by show (60 : Nat) ≠ 0; decide)
  · obtain ⟨x, hx⟩ := Option.isSome_iff_exists.1 (show (step pgEnv pg0 (pgAsk 8 kaQ.bytes)).isSome = true by decide +kernel)
    have hc := udpQuery_cache (acts := x.2) (st' := x.1) hx
    simp only [ln1, hx, Option.getD_some, hc]
    rfl
  · intro question all hall
    have hall : history exS [.response (alReply.bytes ++ List.replicate 200 0) alReply.bytes.length 50 question [] (fun _ => 1001) true] = some all := hall
    have hg : history exS [.response (alReply.bytes ++ List.replicate 200 0) alReply.bytes.length 50 [] [] (fun _ => 1001) true] =
        some [.add (keyOf (text ms) 1 1) [1, 2, 3, 4] 60 1001] := by decide +kernel
    simp only [history, Event.ops, addOps] at hall hg
    simp only [exS_recordOps _ _ _ question] at hall
    have := hall.symm.trans hg
    cases this
    decide

end Verif.Forwarder
