import Verif.Lemmas.CacheRun
/-! Properties of the response cache: C11, C12, C13, C14, C16, C54. -/

namespace Verif.Cache
open Verif.CacheHT Spec

/-- A cache after the history `ops`. -/
def After (cfg : Cfg) (ops : List Op) (st : St) : Prop := ∃ st0, run cfg (St.init cfg st0) ops = some st

theorem after_inv {cfg : Cfg} {ops : List Op} {st : St} (ha : Area cfg) (wf : ∀ o ∈ ops, Wf o) (h : After cfg ops st) :
    ∃ es, Inv cfg st es ∧ (∀ e ∈ es, Origin cfg ops e) ∧ st.cend + 32 * st.ht.used ≤ cfg.hdr + total ops := by
  obtain ⟨st0, h⟩ := h
  obtain ⟨st', es, e, inv, r, b⟩ := run_ok (cfgOk_of_area ha) ops (init_ok (cfgOk_of_area ha) st0) wf
  rw [h] at e
  cases e
  refine ⟨es, inv, runE_origin r (fun _ h => h) (by simp), ?_⟩
  simpa [St.init, HT.init] using b

/-- No history makes the cache follow a number outside its table or loop without end. -/
theorem never_stuck {cfg : Cfg} {ops : List Op} (ha : Area cfg) (wf : ∀ o ∈ ops, Wf o) (st0 : St) :
    ∃ st, run cfg (St.init cfg st0) ops = some st ∧ ∀ key now, (0 : Byte) ∉ key → (answers cfg st key now).isSome := by
  obtain ⟨st', es, e, inv, _, _⟩ := run_ok (cfgOk_of_area ha) ops (init_ok (cfgOk_of_area ha) st0) wf
  exact ⟨st', e, fun key now h0 => by rw [answers_ok (cfgOk_of_area ha) inv h0]; rfl⟩

/-- C12.  Every record returned for a key was handed to the cache under exactly that key with exactly
those data. -/
theorem only_stored {cfg : Cfg} {ops : List Op} {st : St} {key d : List Byte} {now : Int} {r : Nat} {as : List (List Byte × Nat)}
    (ha : Area cfg) (wf : ∀ o ∈ ops, Wf o) (h : After cfg ops st) (hk : (0 : Byte) ∉ key)
    (he : answers cfg st key now = some as) (hm : (d, r) ∈ as) : ∃ ttl t, Handed ops key d ttl t := by
  obtain ⟨es, inv, ho, _⟩ := after_inv ha wf h
  rw [answers_ok (cfgOk_of_area ha) inv hk] at he
  cases he
  obtain ⟨e, h1, rfl, rfl, _⟩ := mem_answersE.1 hm
  obtain ⟨ttl, t, h2, _⟩ := ho e h1
  exact ⟨ttl, t, h2⟩

/-- C11.  With TTLs honoured, a record is returned only before the end of the lifetime it was stored
with, and the TTL shown is the remaining time (at most that if lifetimes are shared by all records of a
name). -/
theorem never_stale {cfg : Cfg} {ops : List Op} {st : St} {key d : List Byte} {now : Int} {r : Nat} {as : List (List Byte × Nat)}
    (ha : Area cfg) (wf : ∀ o ∈ ops, Wf o) (h : After cfg ops st) (hk : (0 : Byte) ∉ key) (hi : cfg.ignoreTTL = false)
    (he : answers cfg st key now = some as) (hm : (d, r) ∈ as) :
    ∃ ttl t, Handed ops key d ttl t ∧ now < t + ttl ∧ (r : Int) ≤ t + ttl - now ∧
      (cfg.parallel = false → t ≤ now → (r : Int) = t + ttl - now) := by
  obtain ⟨es, inv, ho, _⟩ := after_inv ha wf h
  rw [answers_ok (cfgOk_of_area ha) inv hk] at he
  cases he
  obtain ⟨e, h1, rfl, rfl, hf, _, hr⟩ := mem_answersE.1 hm
  obtain ⟨ttl, t, h2, h3, h4, h5⟩ := ho e h1
  have h4 := h4 hi
  have hf' : now - e.added < e.ttl := by simpa [freshE, hi] using hf
  rw [hi] at hr
  simp only [Bool.false_eq_true, if_false] at hr
  subst hr
  have hle := leftE_le hf'
  refine ⟨ttl, t, h2, by omega, by omega, fun hp ht => ?_⟩
  obtain ⟨h6, h7⟩ := h5 hp
  have hw := (wf _ h2).2
  unfold leftE
  rw [h6, h7]
  omega

/-- C13.  A record that is served with the TTL `r` at time `t` is still served at every later time
before `t + r`, whatever is stored or swept meanwhile. -/
theorem stays {cfg : Cfg} {ops ops' : List Op} {st st' : St} {key d : List Byte} {t now : Int} {r : Nat} {as : List (List Byte × Nat)}
    (ha : Area cfg) (wf : ∀ o ∈ ops, Wf o) (wf' : ∀ o ∈ ops', Wf o) (h : After cfg ops st) (hk : (0 : Byte) ∉ key)
    (hi : cfg.ignoreTTL = false) (he : answers cfg st key t = some as) (hm : (d, r) ∈ as) (hr : run cfg st ops' = some st')
    (hp : cfg.parallel = false ∨ ∀ d' ttl' t', ¬ Handed ops' key d' ttl' t')
    (hs : ∀ s, Op.sweep s ∈ ops' → s < t + r) (hn : t ≤ now) (hnow : now < t + r) :
    ∃ as' r', answers cfg st' key now = some as' ∧ (d, r') ∈ as' ∧ (r' : Int) = t + r - now := by
  have hc := cfgOk_of_area ha
  obtain ⟨es, inv, ho, _⟩ := after_inv ha wf h
  rw [answers_ok hc inv hk] at he
  cases he
  obtain ⟨e, h1, rfl, rfl, hf, hz, hr'⟩ := mem_answersE.1 hm
  have hf' : t - e.added < e.ttl := by simpa [freshE, hi] using hf
  rw [hi] at hr'
  simp only [Bool.false_eq_true, if_false] at hr'
  have hle := leftE_le hf'
  rw [← hr'] at hle
  obtain ⟨st2, es', e2, inv', re, _⟩ := run_ok hc ops' inv wf'
  rw [hr] at e2
  cases e2
  have hstay : e ∈ es' := runE_stays re h1 hp (fun s h => by
    have := hs s h
    simp only [expiredE, decide_eq_false_iff_not]; omega)
  refine ⟨_, leftE now e, answers_ok hc inv' hk now, mem_answersE.2 ⟨e, hstay, rfl, rfl, ?_, hz, by simp [hi]⟩, ?_⟩
  · simp only [freshE, hi, Bool.false_or, decide_eq_true_eq]; omega
  · unfold leftE at hr' ⊢; omega

/-- C13.  A record the cache accepts is served at once with its lifetime. -/
theorem accepted_served {cfg : Cfg} {ops : List Op} {st st' : St} {key data : List Byte} {ttl : Nat} {now : Int}
    (ha : Area cfg) (wf : ∀ o ∈ ops, Wf o) (h : After cfg ops st) (hk : (0 : Byte) ∉ key) (ht : ttl < 4294967296)
    (hp : cfg.parallel = false) (hs : addItem cfg st key data ttl now = some (st', .stored)) :
    ∃ as, answers cfg st' key now = some as ∧ (data, ttl) ∈ as := by
  have hc := cfgOk_of_area ha
  obtain ⟨es, inv, ho, _⟩ := after_inv ha wf h
  obtain ⟨st2, out, e, r⟩ := addItem_ok hc inv (data := data) hk ttl now
  rw [hs] at e
  cases e
  cases r with
  | stored _ i inv' ht' hd hin hg =>
    refine ⟨_, answers_ok hc inv' hk now, mem_answersE.2 ⟨_, List.mem_cons_self, rfl, rfl, ?_, ?_, ?_⟩⟩
    · simp only [freshE, addTTL, hp, Bool.false_eq_true, if_false, Bool.or_eq_true, decide_eq_true_eq]; right; omega
    · simpa [addTTL, hp] using ht'
    · simp only [addTTL, hp, Bool.false_eq_true, if_false, leftE]
      split
      · rfl
      · omega

/-- The cache has room for everything handed to it so far and for this record. -/
def RoomFor (cfg : Cfg) (ops : List Op) (key data : List Byte) : Prop :=
  cfg.hdr + 4 * cfg.nslots + total ops + cost (.add key data 0 0) ≤ cfg.size

/-- C13, C16.  With room, a record with a positive lifetime whose data are not a beginning or a
continuation of other data handed in for the same key is served after storing it. -/
theorem accepted_partial {cfg : Cfg} {ops : List Op} {st : St} {key data : List Byte} {ttl : Nat} {now : Int}
    (ha : Area cfg) (wf : ∀ o ∈ ops, Wf o) (h : After cfg ops st) (hk : (0 : Byte) ∉ key) (ht : ttl < 4294967296) (h0 : ttl ≠ 0)
    (hp : cfg.parallel = false) (hroom : RoomFor cfg ops key data)
    (hd : ∀ d' ttl' t', Handed ops key d' ttl' t' → Apart data d') :
    ∃ st' as r, step cfg st (.add key data ttl now) = some st' ∧ answers cfg st' key now = some as ∧ (data, r) ∈ as := by
  have hc := cfgOk_of_area ha
  obtain ⟨es, inv, ho, hb⟩ := after_inv ha wf h
  obtain ⟨st', out, e, r⟩ := addItem_ok hc inv (data := data) hk ttl now
  have hstep : step cfg st (.add key data ttl now) = some st' := by unfold step; dsimp only; rw [e]; rfl
  cases r with
  | duplicate e' he' hk' hf' hd' =>
    obtain ⟨t0, n0, h1, h2, _, h4⟩ := ho e' he'
    subst hk'
    have : data = e'.data := by
      rcases hd _ _ _ h1 with h | h
      · exact h
      · rcases hd' with h' | h'
        · exact absurd h' h.1
        · exact absurd h' h.2
    subst this
    refine ⟨st, _, _, hstep, answers_ok hc inv hk now, mem_answersE.2 ⟨e', he', rfl, rfl, hf', ?_, rfl⟩⟩
    rw [(h4 hp).1]; exact h2
  | zeroTTL h => exact absurd h h0
  | noRoom _ inv' _ _ _ _ _ hr =>
    exfalso
    simp only [RoomFor, cost] at hroom
    unfold roundUp at hr
    simp only [List.length_append, List.length_cons] at hr
    rw [show key.length + (data.length + 1) + 1 + 15 = key.length + data.length + 2 + 15 from by omega] at hr
    omega
  | stored _ i inv' ht' hd' hin hg =>
    obtain ⟨as, h1, h2⟩ := accepted_served ha wf h hk ht hp e
    exact ⟨st', as, ttl, hstep, h1, h2⟩

/-! ### C16: distinct records -/

/-- The full claim: two different records of one key, stored one after the other into an empty cache
with room, are both served. -/
def DistinctKept : Prop :=
  ∀ (cfg : Cfg) (st0 : St) (key d1 d2 : List Byte) (ttl : Nat) (now : Int), Area cfg → (0 : Byte) ∉ key → ttl ≠ 0 →
    ttl < 4294967296 → cfg.parallel = false → cfg.ignoreTTL = false → d1 ≠ d2 →
    cfg.hdr + 4 * cfg.nslots + total [.add key d1 ttl now, .add key d2 ttl now] ≤ cfg.size →
    ∃ st as, run cfg (St.init cfg st0) [.add key d1 ttl now, .add key d2 ttl now] = some st ∧
      answers cfg st key now = some as ∧ d1 ∈ as.map Prod.fst ∧ d2 ∈ as.map Prod.fst

/-- A small cache. -/
def smallCfg : Cfg := { size := 1024, nslots := 7, hdr := 128, ignoreTTL := false, parallel := false }
def blank : St := ⟨⟨fun _ => ⟨0, 0, 0, 0, 0, 0, 0⟩, 0, fun _ => 0, 0⟩, 0, fun _ => 0⟩

def txtKey : List Byte := str "a.b 10 1"

/-- C16 is false of the code: data that begin other data already cached are taken for a duplicate. -/
theorem distinctKept_false : ¬ DistinctKept := by
  intro h
  have := h smallCfg blank txtKey [1, 2, 3] [1, 2] 60 0 (by unfold Area; decide) (by decide +kernel) (by decide) (by decide) rfl rfl (by decide)
    (by decide +kernel)
  obtain ⟨st, as, h1, h2, _, h3⟩ := this
  have e : (run smallCfg (St.init smallCfg blank) [.add txtKey [1, 2, 3] 60 0, .add txtKey [1, 2] 60 0]).bind
      (fun s => answers smallCfg s txtKey 0) = some [([1, 2, 3], 60)] := by decide +kernel
  rw [h1] at e
  change answers smallCfg st txtKey 0 = some [([1, 2, 3], 60)] at e
  rw [h2] at e
  cases e
  revert h3
  decide

/-- C16, proved part: two records of one name, neither data a beginning of the other (in particular two
different ones of equal length), are both served until they expire. -/
theorem distinct_kept_partial {cfg : Cfg} {ops : List Op} {key d1 d2 : List Byte} {ttl1 ttl2 : Nat} {t1 t2 now : Int} (st0 : St)
    (ha : Area cfg) (wf : ∀ o ∈ ops ++ [Op.add key d1 ttl1 t1, Op.add key d2 ttl2 t2], Wf o) (hp : cfg.parallel = false)
    (hi : cfg.ignoreTTL = false) (h1 : ttl1 ≠ 0) (h2 : ttl2 ≠ 0)
    (hroom : cfg.hdr + 4 * cfg.nslots + total (ops ++ [Op.add key d1 ttl1 t1, Op.add key d2 ttl2 t2]) ≤ cfg.size)
    (hnew : ∀ d ttl t, ¬ Handed ops key d ttl t)
    (hn1 : now < t1 + ttl1) (hn2 : now < t2 + ttl2)
    (hd : ¬ d1 <+: d2 ∧ ¬ d2 <+: d1) :
    ∃ st as, run cfg (St.init cfg st0) (ops ++ [Op.add key d1 ttl1 t1, Op.add key d2 ttl2 t2]) = some st ∧
      answers cfg st key now = some as ∧ d1 ∈ as.map Prod.fst ∧ d2 ∈ as.map Prod.fst := by
  have hc := cfgOk_of_area ha
  have w1 : Wf (Op.add key d1 ttl1 t1) := wf _ (by simp)
  have w2 : Wf (Op.add key d2 ttl2 t2) := wf _ (by simp)
  have hk : (0 : Byte) ∉ key := w1.1
  simp only [total, List.map_append, List.sum_append, List.map_cons, List.map_nil, List.sum_cons, List.sum_nil, Nat.add_zero] at hroom
  obtain ⟨sta, es, ea, inva, ra, ba⟩ := run_ok hc ops (init_ok hc st0) (fun o ho => wf o (by simp [ho]))
  have horig := runE_origin ra (fun _ h => h) (by simp)
  have ba' : sta.cend + 32 * sta.ht.used ≤ cfg.hdr + total ops := by simpa [St.init, HT.init] using ba
  have htot : total ops = (ops.map cost).sum := rfl
  have stored : ∀ {st : St} {es : List Entry} {d : List Byte} {ttl : Nat} {t : Int} (_ : Inv cfg st es) (_ : ttl ≠ 0)
      (_ : ∀ e ∈ es, e.key = key → ¬ d <+: e.data ∧ ¬ e.data <+: d)
      (_ : st.cend + 32 * st.ht.used + cost (.add key d ttl t) + 4 * cfg.nslots ≤ cfg.size),
      ∃ st' i, step cfg st (.add key d ttl t) = some st' ∧ Inv cfg st' (⟨i, key, d, ttl, t⟩ :: es) ∧
        st'.cend + 32 * st'.ht.used ≤ st.cend + 32 * st.ht.used + cost (.add key d ttl t) := by
    intro st es d ttl t inv h0 hap hro
    obtain ⟨st', out, e, r⟩ := addItem_ok hc inv (data := d) hk ttl t
    have hstep : step cfg st (.add key d ttl t) = some st' := by unfold step; dsimp only; rw [e]; rfl
    cases r with
    | duplicate e' he' hk' hf' hd' =>
      exfalso
      rcases hd' with h | h
      · exact (hap e' he' hk').1 h
      · exact (hap e' he' hk').2 h
    | zeroTTL h => exact absurd h h0
    | noRoom _ _ _ _ _ _ _ hr _ _ =>
      exfalso
      simp only [cost] at hro
      unfold roundUp at hr
      simp only [List.length_append, List.length_cons] at hr
      rw [show key.length + (d.length + 1) + 1 + 15 = key.length + d.length + 2 + 15 from by omega] at hr
      omega
    | stored _ i inv' ht' hd' hin hg =>
      refine ⟨st', i, hstep, by simpa [addTTL, addOld, hp] using inv', ?_⟩
      simp only [cost]
      unfold roundUp at hg
      simp only [List.length_append, List.length_cons] at hg
      rw [show key.length + (d.length + 1) + 1 + 15 = key.length + d.length + 2 + 15 from by omega] at hg
      rcases hg with ⟨a, b⟩ | ⟨a, b⟩
      · rw [a, b]; omega
      · rw [a, b]; omega
  obtain ⟨stb, i1, e1, inv1, b1⟩ := stored (d := d1) (t := t1) inva h1 (fun e he hke => by
    obtain ⟨ttl, t, h, _⟩ := horig e he
    rw [hke] at h
    exact absurd h (hnew _ _ _)) (by omega)
  obtain ⟨stc, i2, e2, inv2, b2⟩ := stored (d := d2) (t := t2) inv1 h2 (fun e he hke => by
    rcases List.mem_cons.1 he with rfl | he
    · exact hd.symm
    · obtain ⟨ttl, t, h, _⟩ := horig e he
      rw [hke] at h
      exact absurd h (hnew _ _ _)) (by omega)
  refine ⟨stc, _, ?_, answers_ok hc inv2 hk now, ?_, ?_⟩
  · rw [run_append, ea]
    show run cfg sta _ = _
    rw [run, e1]
    show run cfg stb _ = _
    rw [run, e2]; rfl
  · refine List.mem_map.2 ⟨(d1, _), mem_answersE.2 ⟨⟨i1, key, d1, ttl1, t1⟩, by simp, rfl, rfl, ?_, h1, rfl⟩, rfl⟩
    simp only [freshE, hi, Bool.false_or, decide_eq_true_eq]; omega
  · refine List.mem_map.2 ⟨(d2, _), mem_answersE.2 ⟨⟨i2, key, d2, ttl2, t2⟩, by simp, rfl, rfl, ?_, h2, rfl⟩, rfl⟩
    simp only [freshE, hi, Bool.false_or, decide_eq_true_eq]; omega

/-! ### C14: the area -/

theorem linked_entry {cfg : Cfg} {st : St} {es : List Entry} {X : List Nat} {F : List Grp} (c : Core cfg st es X F) {i : Nat}
    (h : Linked cfg st i) : ∃ s, s < cfg.nslots ∧ ∃ A B, chain cfg es s = A ++ i :: B ∧
      Seg (fun j => (st.ht.nodes j).next) (st.ht.nodes i).next B (-1) := by
  induction h with
  | @head s i hs h =>
    have hseg := c.slots s hs
    rw [h] at hseg
    cases hch : chain cfg es s with
    | nil => rw [hch] at hseg; have : (i : Int) = -1 := hseg; omega
    | cons a l =>
      rw [hch] at hseg
      obtain ⟨h1, h2⟩ := hseg
      have : i = a := by omega
      subst this
      exact ⟨s, hs, [], l, hch, h2⟩
  | @next i j hi h ih =>
    obtain ⟨s, hs, A, B, hch, hseg⟩ := ih
    rw [h] at hseg
    cases B with
    | nil => have : (j : Int) = -1 := hseg; omega
    | cons a l =>
      obtain ⟨h1, h2⟩ := hseg
      have : j = a := by omega
      subst this
      exact ⟨s, hs, A ++ [i], l, by rw [hch]; simp, h2⟩

theorem linked_live {cfg : Cfg} {st : St} {es : List Entry} {X : List Nat} {F : List Grp} (c : Core cfg st es X F) {i : Nat}
    (h : Linked cfg st i) : ∃ e ∈ es, e.idx = i := by
  obtain ⟨s, _, A, B, hch, _⟩ := linked_entry c h
  have : i ∈ chain cfg es s := by rw [hch]; simp
  have := (chain_sublist cfg es s).subset this
  simpa using this

/-- C14.  The bytes of the records that lookups can reach lie between the header and the index, one
record's `used` bytes in its own block, and the blocks of two records never overlap. -/
theorem blocks_apart {cfg : Cfg} {ops : List Op} {st : St} {i j : Nat} (ha : Area cfg) (wf : ∀ o ∈ ops, Wf o)
    (h : After cfg ops st) (hi : Linked cfg st i) :
    i < st.ht.used ∧ (st.ht.nodes i).used ≤ (st.ht.nodes i).length ∧ cfg.hdr ≤ (st.ht.nodes i).offset ∧
      ((st.ht.nodes i).offset : Int) + (st.ht.nodes i).length ≤ indexStart cfg st ∧
      (Linked cfg st j → i ≠ j → (st.ht.nodes i).offset + (st.ht.nodes i).length ≤ (st.ht.nodes j).offset ∨
        (st.ht.nodes j).offset + (st.ht.nodes j).length ≤ (st.ht.nodes i).offset) := by
  obtain ⟨es, ⟨X, F, c, _⟩, _, _⟩ := after_inv ha wf h
  obtain ⟨e, he, rfl⟩ := linked_live c hi
  have hlt := c.idx_lt he
  have h1 := off_ge c hlt
  have h2 := off_end c hlt
  have h3 := c.room
  have l := c.live e he
  refine ⟨hlt, by rw [l.used]; exact l.fits, h1, by unfold indexStart; omega, fun hj hne => ?_⟩
  obtain ⟨e', he', rfl⟩ := linked_live c hj
  have hlt' := c.idx_lt he'
  rcases Nat.lt_or_gt_of_ne hne with x | x
  · exact .inl (off_lt c x hlt')
  · exact .inr (off_lt c x hlt)

/-- C14.  An operation changes bytes only between the header and the index (as it is afterwards). -/
theorem writes_inside {cfg : Cfg} {ops : List Op} {st st' : St} {o : Op} (ha : Area cfg) (wf : ∀ o ∈ ops, Wf o) (wo : Wf o)
    (h : After cfg ops st) (hs : step cfg st o = some st') (k : Nat) (hk : st'.mem k ≠ st.mem k) :
    cfg.hdr ≤ k ∧ (k : Int) < indexStart cfg st' := by
  obtain ⟨es, inv, _, _⟩ := after_inv ha wf h
  obtain ⟨st2, es', e, _, _, hin, _⟩ := step_ok (cfgOk_of_area ha) inv wo
  rw [hs] at e
  cases e
  have := hin k hk
  unfold indexStart
  omega

/-- C14.  When there is no room the store is refused and nothing changes. -/
theorem refused_unchanged {cfg : Cfg} {ops : List Op} {st st' : St} {key data : List Byte} {ttl : Nat} {now : Int}
    (ha : Area cfg) (wf : ∀ o ∈ ops, Wf o) (h : After cfg ops st) (hk : (0 : Byte) ∉ key)
    (hs : addItem cfg st key data ttl now = some (st', .noRoom)) :
    st'.mem = st.mem ∧ ∀ k t, (0 : Byte) ∉ k → answers cfg st' k t = answers cfg st k t := by
  have hc := cfgOk_of_area ha
  obtain ⟨es, inv, ho, _⟩ := after_inv ha wf h
  obtain ⟨st2, out, e, r⟩ := addItem_ok hc inv (data := data) hk ttl now
  rw [hs] at e
  cases e
  cases r with
  | noRoom _ inv' hm => exact ⟨hm, fun k t h0 => by rw [answers_ok hc inv' h0, answers_ok hc inv h0]⟩

/-- C14.  The comparisons of a lookup (at most 511 bytes from a record's second byte on) stay inside an
area of at least 16 blocks of 512 bytes behind the header. -/
theorem reads_inside {cfg : Cfg} {ops : List Op} {st : St} {i : Nat} (ha : Area cfg) (wf : ∀ o ∈ ops, Wf o)
    (h : After cfg ops st) (hi : Linked cfg st i) (hsize : cfg.hdr + 16 * 512 ≤ cfg.size)
    (hlen : ∀ j, j < st.ht.used → (st.ht.nodes j).length ≤ 512) : (st.ht.nodes i).offset + 512 ≤ cfg.size := by
  obtain ⟨es, ⟨X, F, c, _⟩, _, _⟩ := after_inv ha wf h
  obtain ⟨e, he, rfl⟩ := linked_live c hi
  have hlt := c.idx_lt he
  have h2 := off_end c hlt
  have h3 := c.room
  obtain ⟨st0, hr0⟩ := h
  have tight := run_tight (cfgOk_of_area ha) ops (init_ok (cfgOk_of_area ha) st0) wf hr0 (init_tight st0)
  by_cases hu : st.ht.used < 16
  · have hoff : ∀ k, k < st.ht.used → (st.ht.nodes k).offset ≤ cfg.hdr + 512 * k := by
      intro k
      induction k with
      | zero => intro h0; rw [tight.1 h0]; omega
      | succ k ih => intro hk; have := tight.2.1 k hk; have := ih (by omega); have := hlen k (by omega); omega
    have := hoff e.idx hlt
    omega
  · omega

/-! A history in which a block is freed and used again: meets the hypotheses of the theorems above. -/

/-- Three records, a sweep after the second has expired, and a fourth that takes its block. -/
def demo : List Op :=
  [.add (str "a.b 1 1") [1, 2, 3, 4] 60 0, .add (str "c.d 1 1") [5, 6, 7, 8] 10 0, .add (str "a.b 1 1") [9, 9, 9, 9] 60 5,
    .sweep 20, .add (str "e.f 1 1") [7, 7, 7, 7] 30 20]

theorem demo_runs : (run smallCfg (St.init smallCfg blank) demo).isSome := by decide +kernel
def demoSt : St := (run smallCfg (St.init smallCfg blank) demo).get demo_runs

theorem demo_after : After smallCfg demo demoSt := ⟨blank, by simp [demoSt]⟩
theorem demo_wf : ∀ o ∈ demo, Wf o := by
  simp only [demo, List.mem_cons, List.not_mem_nil, or_false, forall_eq_or_imp, forall_eq, Wf]
  decide +kernel
theorem demo_area : Area smallCfg := by unfold Area; decide

example : answers smallCfg demoSt (str "a.b 1 1") 30 = some [([9, 9, 9, 9], 35), ([1, 2, 3, 4], 30)] := by decide +kernel
example : answers smallCfg demoSt (str "c.d 1 1") 5 = some [] := by decide +kernel
example : answers smallCfg demoSt (str "e.f 1 1") 49 = some [([7, 7, 7, 7], 1)] := by decide +kernel
example : answers smallCfg demoSt (str "e.f 1 1") 50 = some [] := by decide +kernel

/-- `never_stale` and `only_stored` apply to it. -/
example : ∃ ttl t, Handed demo (str "a.b 1 1") [9, 9, 9, 9] ttl t ∧ (30 : Int) < t + ttl ∧ (35 : Int) ≤ t + ttl - 30 := by
  obtain ⟨ttl, t, h1, h2, h3, _⟩ := never_stale (cfg := smallCfg) (st := demoSt) (key := str "a.b 1 1") (d := [9, 9, 9, 9]) (now := 30) (r := 35)
    demo_area demo_wf demo_after (by decide +kernel) rfl
    (show answers smallCfg demoSt (str "a.b 1 1") 30 = some [([9, 9, 9, 9], 35), ([1, 2, 3, 4], 30)] by decide +kernel) (by simp)
  exact ⟨ttl, t, h1, h2, h3⟩

/-- `stays` applies: a sweep and another record meanwhile. -/
example : (run smallCfg demoSt [.sweep 55, .add (str "g.h 1 1") [1] 5 56]).isSome ∧
    (∀ s, Op.sweep s ∈ [Op.sweep 55, .add (str "g.h 1 1") [1] 5 56] → s < (30 : Int) + (35 : Nat)) := by
  constructor
  · decide +kernel
  · intro s h; simp at h; omega

/-- `accepted_partial`, `distinct_kept_partial`: the small cache has room for all of it and more. -/
example : RoomFor smallCfg demo (str "a.b 1 1") [8, 8, 8, 8] ∧ Apart [8, 8, 8, 8] [1, 2, 3, 4] ∧ Apart [8, 8, 8, 8] [9, 9, 9, 9] := by
  unfold RoomFor Apart; decide +kernel

/-- `refused_unchanged`: a full cache. -/
example : ((addItem { smallCfg with size := 300 } (St.init smallCfg blank) (str "a.b 1 1") (List.replicate 200 1) 60 0).map Prod.snd) =
    some .noRoom := by decide +kernel

/-- `blocks_apart`: three records of one chain; the keys share a slot. -/
example : Linked smallCfg demoSt 0 ∧ Linked smallCfg demoSt 1 ∧ Linked smallCfg demoSt 2 ∧ (demoSt.ht.nodes 2).offset = 160 := by
  have h1 : Linked smallCfg demoSt 1 := .head (s := slotOf smallCfg (str "a.b 1 1")) (by decide +kernel) (by decide +kernel)
  have h2 : Linked smallCfg demoSt 2 := .next h1 (by decide +kernel)
  exact ⟨.next h2 (by decide +kernel), h1, h2, by decide +kernel⟩

/-! ### C54: the option to ignore TTLs -/

/-- With `IgnoreTTL` a record that is served stays so, with the same TTL, whatever is stored later
(provided lifetimes are not shared by the records of a name). -/
theorem kept_forever_partial {cfg : Cfg} {ops ops' : List Op} {st st' : St} {key d : List Byte} {t now : Int} {r : Nat} {as : List (List Byte × Nat)}
    (ha : Area cfg) (wf : ∀ o ∈ ops, Wf o) (wf' : ∀ o ∈ ops', Wf o) (h : After cfg ops st) (hk : (0 : Byte) ∉ key)
    (hi : cfg.ignoreTTL = true) (hp : cfg.parallel = false) (he : answers cfg st key t = some as) (hm : (d, r) ∈ as)
    (hr : run cfg st ops' = some st') (hs : ∀ s, Op.sweep s ∉ ops') :
    ∃ as', answers cfg st' key now = some as' ∧ (d, r) ∈ as' := by
  have hc := cfgOk_of_area ha
  obtain ⟨es, inv, ho, _⟩ := after_inv ha wf h
  rw [answers_ok hc inv hk] at he
  cases he
  obtain ⟨e, h1, rfl, rfl, hf, hz, hr'⟩ := mem_answersE.1 hm
  obtain ⟨st2, es', e2, inv', re, _⟩ := run_ok hc ops' inv wf'
  rw [hr] at e2
  cases e2
  have hstay : e ∈ es' := runE_stays re h1 (.inl hp) (fun s h => absurd h (hs s))
  exact ⟨_, answers_ok hc inv' hk now, mem_answersE.2 ⟨e, hstay, rfl, rfl, by simp [freshE, hi], hz, by rw [hr', hi]; rfl⟩⟩

/-- The full claim, for every configuration with `IgnoreTTL`. -/
def KeptForever : Prop :=
  ∀ (cfg : Cfg) (ops ops' : List Op) (st st' : St) (key d : List Byte) (t now : Int) (r : Nat) (as : List (List Byte × Nat)),
    Area cfg → (∀ o ∈ ops, Wf o) → (∀ o ∈ ops', Wf o) → After cfg ops st → (0 : Byte) ∉ key → cfg.ignoreTTL = true →
    answers cfg st key t = some as → (d, r) ∈ as → run cfg st ops' = some st' → (∀ s, Op.sweep s ∉ ops') →
    ∃ as' r', answers cfg st' key now = some as' ∧ (d, r') ∈ as'

/-- It is false with `CacheParallel`: a second record stored exactly when the lifetime of the first has
passed sets both lifetimes to 0, and records with lifetime 0 are skipped. -/
theorem keptForever_false : ¬ KeptForever := by
  intro h
  let cfg : Cfg := { smallCfg with ignoreTTL := true, parallel := true }
  have e1 : (run cfg (St.init cfg blank) [.add txtKey [1, 2, 3, 4] 10 0]).bind (fun s => answers cfg s txtKey 0) =
      some [([1, 2, 3, 4], 10)] := by decide +kernel
  have e2 : (run cfg (St.init cfg blank) [.add txtKey [1, 2, 3, 4] 10 0, .add txtKey [5, 6, 7, 8] 10 10]).bind
      (fun s => answers cfg s txtKey 10) = some [] := by decide +kernel
  cases hr : run cfg (St.init cfg blank) [.add txtKey [1, 2, 3, 4] 10 0] with
  | none => rw [hr] at e1; simp at e1
  | some st =>
    rw [hr] at e1
    change answers cfg st txtKey 0 = _ at e1
    have happ : run cfg (St.init cfg blank) ([.add txtKey [1, 2, 3, 4] 10 0] ++ [.add txtKey [5, 6, 7, 8] 10 10]) =
      run cfg st [.add txtKey [5, 6, 7, 8] 10 10] := by rw [run_append, hr]; rfl
    rw [List.singleton_append] at happ
    rw [happ] at e2
    cases hr2 : run cfg st [.add txtKey [5, 6, 7, 8] 10 10] with
    | none => rw [hr2] at e2; simp at e2
    | some st' =>
      rw [hr2] at e2
      change answers cfg st' txtKey 10 = _ at e2
      have hkey : (0 : Byte) ∉ txtKey := by decide +kernel
      obtain ⟨as', r', h1, h2⟩ := h cfg [.add txtKey [1, 2, 3, 4] 10 0] [.add txtKey [5, 6, 7, 8] 10 10] st st' txtKey [1, 2, 3, 4] 0 10 10 _
        (by unfold Area; decide) (by simp [Wf, hkey]) (by simp [Wf, hkey]) ⟨blank, hr⟩ hkey rfl e1 (by simp) hr2 (by simp)
      rw [e2] at h1
      cases h1
      simp at h2

end Verif.Cache
