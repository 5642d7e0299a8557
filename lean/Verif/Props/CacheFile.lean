import Verif.Lemmas.CacheFileRun
/-! Properties of the cache file: C90, C91, C92, C93. -/

namespace Verif.CacheFile
open Verif.CacheHT Verif.Cache Verif.Cache.Spec

/-! ### C90, C91: restarts and kills -/

/-- C91, proved part.  After any life of a cache file whose kills are between two steps (see
`Verif.Model.CacheFile`: only the growth of the index, the publication of a record, the last two stores of
the recycling of a block and the two stores that share a lifetime are steps of more than one store), the
next start can use the file: lookups end, they return only records handed in under that key, and never
stale ones unless both `IgnoreTTL` and `CacheParallel` were on at some time. -/
theorem killed_usable_partial {cfg : Cfg} {evs : List Ev} (ha : Area cfg) (wf : ∀ o ∈ Spec.ops evs, Wf o)
    (hb : Between (cfg, blank cfg) evs) :
    ∃ cfg' st', life (cfg, blank cfg) evs = some (cfg', st') ∧
      ∀ key now, (0 : Byte) ∉ key → ∃ as, answers cfg' st' key now = some as ∧ ∀ d r, (d, r) ∈ as →
        ∃ ttl t, Handed (Spec.ops evs) key d ttl t ∧
          ((cfg.ignoreTTL = false ∨ cfg.parallel = false) → Spec.Apart evs → cfg'.ignoreTTL = false →
            now < t + ttl ∧ (r : Int) ≤ t + ttl - now) ∧
          (cfg.parallel = false → Spec.Single evs → cfg'.ignoreTTL = false → t ≤ now → (r : Int) = t + ttl - now) := by
  obtain ⟨cfg', st', es, e, hc', g, ho, _⟩ := life_ok ((cfg.ignoreTTL = false ∨ cfg.parallel = false) ∧ Spec.Apart evs)
    (cfg.parallel = false ∧ Spec.Single evs) (Spec.ops evs) evs (cfgOk_of_area ha) (blank_good (cfgOk_of_area ha))
    (fun o h => ⟨wf o h, h⟩) hb (fun h => h.1) (fun h => h.2) (fun h => h.1) (fun h => h.2) (by simp)
  refine ⟨cfg', st', e, fun key now hk => ⟨_, answers_ok hc' g.inv hk now, fun d r hm => ?_⟩⟩
  obtain ⟨en, h1, rfl, rfl, hf, hz, hr⟩ := mem_answersE.1 hm
  obtain ⟨ttl, t, h2, h3, h4⟩ := ho en h1
  refine ⟨ttl, t, h2, fun h5 h6 hi => ?_, fun h5 h6 hi ht => ?_⟩
  · have h3 := h3 ⟨h5, h6⟩
    have hf' : now - en.added < en.ttl := by simpa [freshE, hi] using hf
    rw [hi] at hr
    simp only [Bool.false_eq_true, if_false] at hr
    subst hr
    have hle := leftE_le hf'
    exact ⟨by omega, by omega⟩
  · have h4 := h4 ⟨h5, h6⟩
    have hf' : now - en.added < en.ttl := by simpa [freshE, hi] using hf
    rw [hi] at hr
    simp only [Bool.false_eq_true, if_false] at hr
    subst hr
    rcases h4 with h4 | ⟨h7, h8⟩
    · exact absurd h4 hz
    · have hw := (wf _ h2).2
      unfold leftE
      rw [h7, h8]
      omega

/-- C90, C91.  A record that is served with the TTL `r` at time `t` is still served at every later time
before `t + r`, over restarts, kills between two steps, and whatever is stored or swept meanwhile. -/
theorem killed_keeps_partial {cfg cfg1 : Cfg} {evs evs' : List Ev} {st1 : St} {key d : List Byte} {t now : Int} {r : Nat}
    {as : List (List Byte × Nat)} (ha : Area cfg) (wf : ∀ o ∈ Spec.ops (evs ++ evs'), Wf o)
    (hb : Between (cfg, blank cfg) evs) (hl : life (cfg, blank cfg) evs = some (cfg1, st1)) (hb' : Between (cfg1, st1) evs')
    (hk : (0 : Byte) ∉ key) (hi : cfg1.ignoreTTL = false) (he : answers cfg1 st1 key t = some as) (hm : (d, r) ∈ as)
    (hp : (cfg1.parallel = false ∧ Spec.Single evs') ∨ ∀ d' ttl' t', ¬ Handed (Spec.ops evs') key d' ttl' t')
    (hs : ∀ s, Op.sweep s ∈ Spec.ops evs' → s < t + r) (hn : t ≤ now) (hnow : now < t + r) :
    ∃ cfg2 st2, life (cfg1, st1) evs' = some (cfg2, st2) ∧
      (cfg2.ignoreTTL = false → ∃ as' r', answers cfg2 st2 key now = some as' ∧ (d, r') ∈ as' ∧ (r' : Int) = t + r - now) := by
  have hsub : ∀ o, o ∈ Spec.ops evs ∨ o ∈ Spec.ops evs' → o ∈ Spec.ops (evs ++ evs') := by
    intro o h
    unfold Spec.ops at h ⊢
    rw [List.filterMap_append, List.mem_append]; exact h
  obtain ⟨cfg1', st1', es, e, hc1, g1, _, _⟩ := life_ok False False (Spec.ops evs) evs (cfgOk_of_area ha) (blank_good (cfgOk_of_area ha))
    (fun o h => ⟨wf o (hsub o (.inl h)), h⟩) hb False.elim False.elim False.elim False.elim (by simp)
  rw [hl] at e
  cases e
  rw [answers_ok hc1 g1.inv hk] at he
  cases he
  obtain ⟨en, h1, rfl, rfl, hf, hz, hr'⟩ := mem_answersE.1 hm
  have hf' : t - en.added < en.ttl := by simpa [freshE, hi] using hf
  rw [hi] at hr'
  simp only [Bool.false_eq_true, if_false] at hr'
  have hle := leftE_le hf'
  rw [← hr'] at hle
  obtain ⟨cfg2, st2, es2, e2, hc2, g2, hstay⟩ :
      ∃ cfg2 st2 es2, life (cfg1, st1) evs' = some (cfg2, st2) ∧ CfgOk cfg2 ∧ Good cfg2 st2 es2 ∧ en ∈ es2 := by
    obtain ⟨cfg2, st2, es2, e2, hc2, g2, _, _, hst⟩ := life_ok False (cfg1.parallel = false ∧ Spec.Single evs')
      (Spec.ops evs' ++ es.map fun e => Op.add e.key e.data e.ttl e.added) evs' hc1 g1
      (fun o h => ⟨wf o (hsub o (.inr h)), by simp [h]⟩) hb' False.elim False.elim (fun h => h.1) (fun h => h.2)
      (fun e he => ⟨e.ttl, e.added, by simp only [List.mem_append, List.mem_map]; exact .inr ⟨e, he, rfl⟩, fun h => h.elim, fun _ => .inr ⟨rfl, rfl⟩⟩)
    refine ⟨cfg2, st2, es2, e2, hc2, g2, hst en h1 ?_ (fun s h => ?_)⟩
    · rcases hp with hp | hp
      · exact .inl hp
      · exact .inr hp
    · have := hs s h
      simp only [expiredE, decide_eq_false_iff_not]; omega
  refine ⟨cfg2, st2, e2, fun hi2 => ⟨_, leftE now en, answers_ok hc2 g2.inv hk now, mem_answersE.2 ⟨en, hstay, rfl, rfl, ?_, hz, by simp [hi2]⟩, ?_⟩⟩
  · simp only [freshE, hi2, Bool.false_or, decide_eq_true_eq]; omega
  · unfold leftE at hr' ⊢; omega

theorem calm_between {evs : List Ev} (h : Spec.Calm evs) : ∀ s, Between s evs := by
  induction evs with
  | nil => intro _; trivial
  | cons e evs ih =>
    intro s
    refine ⟨fun o k he => ?_, fun s' _ => ih (fun o k hk => h o k (by simp [hk])) s'⟩
    subst he
    exact absurd (List.mem_cons_self) (h o k)

/-- C90.  Over any sequence of operations and clean restarts, with any changes of `IgnoreTTL` and
`CacheParallel`, lookups return only records handed in under their key, never stale ones unless both
options were on at some time. -/
theorem restart_sound {cfg : Cfg} {evs : List Ev} (ha : Area cfg) (wf : ∀ o ∈ Spec.ops evs, Wf o) (hb : Spec.Calm evs) :
    ∃ cfg' st', life (cfg, blank cfg) evs = some (cfg', st') ∧
      ∀ key now, (0 : Byte) ∉ key → ∃ as, answers cfg' st' key now = some as ∧ ∀ d r, (d, r) ∈ as →
        ∃ ttl t, Handed (Spec.ops evs) key d ttl t ∧
          ((cfg.ignoreTTL = false ∨ cfg.parallel = false) → Spec.Apart evs → cfg'.ignoreTTL = false →
            now < t + ttl ∧ (r : Int) ≤ t + ttl - now) ∧
          (cfg.parallel = false → Spec.Single evs → cfg'.ignoreTTL = false → t ≤ now → (r : Int) = t + ttl - now) :=
  killed_usable_partial ha wf (calm_between hb _)

/-- C90.  A record that is served with the TTL `r` at time `t` is still served at every later time before
`t + r`, over any operations and clean restarts meanwhile. -/
theorem restart_keeps {cfg cfg1 : Cfg} {evs evs' : List Ev} {st1 : St} {key d : List Byte} {t now : Int} {r : Nat}
    {as : List (List Byte × Nat)} (ha : Area cfg) (wf : ∀ o ∈ Spec.ops (evs ++ evs'), Wf o)
    (hb : Spec.Calm evs) (hl : life (cfg, blank cfg) evs = some (cfg1, st1)) (hb' : Spec.Calm evs')
    (hk : (0 : Byte) ∉ key) (hi : cfg1.ignoreTTL = false) (he : answers cfg1 st1 key t = some as) (hm : (d, r) ∈ as)
    (hp : (cfg1.parallel = false ∧ Spec.Single evs') ∨ ∀ d' ttl' t', ¬ Handed (Spec.ops evs') key d' ttl' t')
    (hs : ∀ s, Op.sweep s ∈ Spec.ops evs' → s < t + r) (hn : t ≤ now) (hnow : now < t + r) :
    ∃ cfg2 st2, life (cfg1, st1) evs' = some (cfg2, st2) ∧
      (cfg2.ignoreTTL = false → ∃ as' r', answers cfg2 st2 key now = some as' ∧ (d, r') ∈ as' ∧ (r' : Int) = t + r - now) :=
  killed_keeps_partial ha wf (calm_between hb _) hl (calm_between hb' _) hk hi he hm hp hs hn hnow

/-- The stores of the steps are those of the operation: a program killed after the last of them has done
the whole operation. -/
theorem plan_complete {cfg cfg1 : Cfg} {evs : List Ev} {st1 : St} {o : Op} (ha : Area cfg) (wf : ∀ o ∈ Spec.ops evs, Wf o) (wo : Wf o)
    (hb : Between (cfg, blank cfg) evs) (hl : life (cfg, blank cfg) evs = some (cfg1, st1)) :
    step cfg1 st1 o = some (killed cfg1 st1 o (plan cfg1 st1 o).flatten.length) := by
  obtain ⟨cfg1', st1', es, e, hc1, g1, _⟩ := life_ok False False (Spec.ops evs) evs (cfgOk_of_area ha) (blank_good (cfgOk_of_area ha))
    (fun o h => ⟨wf o h, h⟩) hb False.elim False.elim False.elim False.elim (by simp)
  rw [hl] at e
  cases e
  rw [(plan_ok hc1 g1 wo).2]
  unfold killed
  rw [List.take_length]

/-- C91, atomicity.  A program killed between two steps of storing a record leaves a file that answers as if
the record had not been stored, or as if it had. -/
theorem killed_atomic_partial {cfg cfg1 : Cfg} {evs : List Ev} {st1 : St} {key data : List Byte} {ttl k i : Nat} {now : Int}
    (ha : Area cfg) (wf : ∀ o ∈ Spec.ops evs, Wf o) (wo : Wf (.add key data ttl now))
    (hb : Between (cfg, blank cfg) evs) (hl : life (cfg, blank cfg) evs = some (cfg1, st1)) (hp : cfg1.parallel = false)
    (hk : k = ((plan cfg1 st1 (.add key data ttl now)).take i).flatten.length) :
    (∀ key' t, (0 : Byte) ∉ key' → answers cfg1 (killed cfg1 st1 (.add key data ttl now) k) key' t = answers cfg1 st1 key' t) ∨
    (∀ key' t, (0 : Byte) ∉ key' → now ≤ t → ∃ as, answers cfg1 st1 key' t = some as ∧
      answers cfg1 (killed cfg1 st1 (.add key data ttl now) k) key' t =
        some (if key' = key ∧ ttl ≠ 0 ∧ (cfg1.ignoreTTL = true ∨ t < now + ttl) then
          (data, if cfg1.ignoreTTL then ttl else ((ttl : Int) - (t - now)).toNat) :: as else as)) := by
  obtain ⟨cfg1', st1', es, e, hc1, g1, _⟩ := life_ok False False (Spec.ops evs) evs (cfgOk_of_area ha) (blank_good (cfgOk_of_area ha))
    (fun o h => ⟨wf o h, h⟩) hb False.elim False.elim False.elim False.elim (by simp)
  rw [hl] at e
  cases e
  obtain ⟨es', g', hke⟩ := kill_good hc1 g1 wo hk
  generalize killed cfg1 st1 (.add key data ttl now) k = s at *
  cases hke with
  | nothing => exact .inl (fun key' t h0 => by rw [answers_ok hc1 g'.inv h0, answers_ok hc1 g1.inv h0])
  | share _ _ _ _ hp' J => rw [hp] at hp'; simp at hp'
  | done h =>
    cases h with
    | keep => exact .inl (fun key' t h0 => by rw [answers_ok hc1 g'.inv h0, answers_ok hc1 g1.inv h0])
    | add i key data ttl now ht hd =>
      refine .inr (fun key' t h0 hnt => ⟨_, answers_ok hc1 g1.inv h0 t, ?_⟩)
      rw [answers_ok hc1 g'.inv h0]
      congr 1
      unfold answersE addOld addTTL
      simp only [hp, Bool.false_eq_true, if_false]
      rw [List.filter_cons]
      by_cases hk' : key' = key
      · by_cases hf : cfg1.ignoreTTL = true ∨ t < now + ttl
        · have hm : matching cfg1 key' t ⟨i, key, data, ttl, now⟩ = true := by
            simp only [matching, freshE, hk', beq_self_eq_true, Bool.true_and, Bool.or_eq_true, decide_eq_true_eq]
            rcases hf with h | h
            · exact .inl h
            · exact .inr (by omega)
          rw [if_pos hm, List.filter_cons, if_pos (by simpa using ht), List.map_cons, if_pos (show key' = key ∧ ttl ≠ 0 ∧ (cfg1.ignoreTTL = true ∨ t < now + ttl) from ⟨hk', ht, hf⟩)]
          congr 2
          cases hi : cfg1.ignoreTTL with
          | true => rfl
          | false =>
            rw [hi] at hf
            simp only [Bool.false_eq_true, false_or] at hf
            have hw := wo.2
            simp only [leftE, Bool.false_eq_true, if_false]
            congr 1
            rw [Int.emod_eq_of_lt (by omega) (by omega)]
        · have hm : matching cfg1 key' t ⟨i, key, data, ttl, now⟩ = false := by
            simp only [matching, freshE, hk', beq_self_eq_true, Bool.true_and, Bool.or_eq_false_iff, decide_eq_false_iff_not]
            exact ⟨by cases h : cfg1.ignoreTTL with | true => exact absurd (.inl h) hf | false => rfl, fun h => hf (.inr (by omega))⟩
          rw [if_neg (by rw [hm]; simp), if_neg (by rintro ⟨_, _, h⟩; exact hf h)]
      · have hm : matching cfg1 key' t ⟨i, key, data, ttl, now⟩ = false := by
          simp only [matching, Bool.and_eq_false_iff]
          exact .inl (by simpa using fun h => hk' h.symm)
        rw [if_neg (by rw [hm]; simp), if_neg (by rintro ⟨h, _⟩; exact hk' h)]

/-- C91.  A program killed between two steps of a sweep leaves a file that answers as before, from the time
of the sweep on. -/
theorem killed_sweep_partial {cfg cfg1 : Cfg} {evs : List Ev} {st1 : St} {k i : Nat} {now : Int}
    (ha : Area cfg) (wf : ∀ o ∈ Spec.ops evs, Wf o)
    (hb : Between (cfg, blank cfg) evs) (hl : life (cfg, blank cfg) evs = some (cfg1, st1)) (hi : cfg1.ignoreTTL = false)
    (hk : k = ((plan cfg1 st1 (.sweep now)).take i).flatten.length) {key : List Byte} {t : Int} (h0 : (0 : Byte) ∉ key) (ht : now ≤ t) :
    answers cfg1 (killed cfg1 st1 (.sweep now) k) key t = answers cfg1 st1 key t := by
  obtain ⟨cfg1', st1', es, e, hc1, g1, _⟩ := life_ok False False (Spec.ops evs) evs (cfgOk_of_area ha) (blank_good (cfgOk_of_area ha))
    (fun o h => ⟨wf o h, h⟩) hb False.elim False.elim False.elim False.elim (by simp)
  rw [hl] at e
  cases e
  obtain ⟨es', g', hke⟩ := kill_good hc1 g1 (o := .sweep now) trivial hk
  rw [answers_ok hc1 g'.inv h0, answers_ok hc1 g1.inv h0]
  congr 1
  exact killE_sweep_answers hke hi ht

/-! ### C91 is false inside the steps -/

/-- The full claim: wherever the program is killed, lookups end, a record that is served stays served, and
the bytes before the blocks (the header) are left alone. -/
def KilledUsable : Prop :=
  ∀ (cfg : Cfg) (evs : List Ev), Area cfg → (∀ o ∈ Spec.ops evs, Wf o) →
    ∃ cfg' st', life (cfg, blank cfg) evs = some (cfg', st') ∧ ∀ key now, (0 : Byte) ∉ key → (answers cfg' st' key now).isSome

def KilledKeeps : Prop :=
  ∀ (cfg : Cfg) (evs evs' : List Ev) (cfg1 : Cfg) (st1 : St) (key d : List Byte) (t : Int) (r : Nat) (as : List (List Byte × Nat)),
    Area cfg → (∀ o ∈ Spec.ops (evs ++ evs'), Wf o) → cfg.ignoreTTL = false → cfg.parallel = false → (∀ i p, Ev.restart i p ∉ evs ++ evs') →
    life (cfg, blank cfg) evs = some (cfg1, st1) → (0 : Byte) ∉ key → answers cfg1 st1 key t = some as → (d, r) ∈ as →
    (∀ s, Op.sweep s ∈ Spec.ops evs' → s < t + r) → 0 < r →
    ∃ st2 as' r', life (cfg1, st1) evs' = some (cfg1, st2) ∧ answers cfg1 st2 key t = some as' ∧ (d, r') ∈ as'

def HeaderSafe : Prop :=
  ∀ (cfg : Cfg) (evs : List Ev) (cfg' : Cfg) (st' : St), Area cfg → (∀ o ∈ Spec.ops evs, Wf o) →
    life (cfg, blank cfg) evs = some (cfg', st') → ∀ k, k < cfg.hdr → st'.mem k = 0

/-- A small cache. -/
def tiny : Cfg := { size := 1024, nslots := 7, hdr := 128, ignoreTTL := false, parallel := false }
def ka : List Byte := str "a"
def kb : List Byte := str "b"

theorem ka_ok : (0 : Byte) ∉ ka := by decide +kernel
theorem kb_ok : (0 : Byte) ∉ kb := by decide +kernel
theorem tiny_area : Area tiny := by unfold Area; decide

/-- Killed after the lifetime, the time, the slot and the link of a new record are stored but before the
slot points to it.  The sweep takes it for a record of that slot and "removes" it: the slot then points to
an old node, and a record stored there later points to itself. -/
def publishing : List Ev :=
  [.op (.add ka [1] 5 0), .kill (.add ka [2] 5 6) 27, .op (.sweep 6), .op (.sweep 11), .op (.add ka [3] 5 11)]

/-- C91 is false of the code: lookups need not end. -/
theorem killedUsable_false : ¬ KilledUsable := by
  intro h
  obtain ⟨cfg', st', h1, h2⟩ := h tiny publishing tiny_area (by
    have := ka_ok
    simp [publishing, Spec.ops, Wf, this])
  have e : (life (tiny, blank tiny) publishing).map (fun s => (answers s.1 s.2 ka 11).isSome) = some false := by decide +kernel
  rw [h1] at e
  simp only [Option.map_some, Option.some.injEq] at e
  rw [h2 ka 11 ka_ok] at e
  simp at e

/-- Killed after a recycled block became the head of the free list, but before its link was set: the list
goes on with the next record of the slot, which is then handed out as a free block. -/
def recycling : List Ev :=
  [.kill (.sweep 6) 6, .op (.add kb [4] 50 6), .op (.add kb [5] 50 6)]

/-- C91 is false of the code: a record that was served, and has not expired, is lost. -/
theorem killedKeeps_false : ¬ KilledKeeps := by
  intro h
  have hk := ka_ok
  have hk' := kb_ok
  have e1 : (life (tiny, blank tiny) [.op (.add ka [1] 50 0), .op (.add ka [2] 5 0), .op (.add ka [3] 50 0)]).map (fun s => (s.1.size, answers s.1 s.2 ka 6)) =
      some (1024, some [([3], 44), ([1], 44)]) := by decide +kernel
  have e2 : ((life (tiny, blank tiny) [.op (.add ka [1] 50 0), .op (.add ka [2] 5 0), .op (.add ka [3] 50 0)]).bind (life · recycling)).map
      (fun s => answers s.1 s.2 ka 6) = some (some [([3], 44)]) := by decide +kernel
  cases hl : life (tiny, blank tiny) [.op (.add ka [1] 50 0), .op (.add ka [2] 5 0), .op (.add ka [3] 50 0)] with
  | none => rw [hl] at e1; simp at e1
  | some s =>
    obtain ⟨cfg1, st1⟩ := s
    rw [hl] at e1 e2
    simp only [Option.map_some, Option.some.injEq, Prod.mk.injEq] at e1
    obtain ⟨st2, as', r', h1, h2, h3⟩ := h tiny [.op (.add ka [1] 50 0), .op (.add ka [2] 5 0), .op (.add ka [3] 50 0)] recycling cfg1 st1 ka [1] 6 44 _
      tiny_area (by simp [recycling, Spec.ops, Wf, hk, hk']) rfl rfl (by simp [recycling]) hl hk e1.2 (by simp)
      (by simp [recycling, Spec.ops]) (by omega)
    simp only [Option.bind_some] at e2
    rw [h1] at e2
    simp only [Option.map_some, Option.some.injEq] at e2
    rw [h2] at e2
    cases e2
    simp at h3

/-- Killed after the count of nodes was raised and before the new node was filled in: the next sweep takes
the end of the blocks from it, and the next record is written over the header. -/
def growing : List Ev :=
  [.op (.add ka [1] 5 0), .kill (.add ka [2] 50 1) 1, .op (.sweep 6), .op (.add kb (List.replicate 20 9) 50 6)]

/-- C91 is false of the code: the header is overwritten (the next start refuses the file or fails). -/
theorem headerSafe_false : ¬ HeaderSafe := by
  intro h
  have hk := ka_ok
  have hk' := kb_ok
  have e : (life (tiny, blank tiny) growing).map (fun s => s.2.mem 0) = some 255 := by decide +kernel
  cases hl : life (tiny, blank tiny) growing with
  | none => rw [hl] at e; simp at e
  | some s =>
    obtain ⟨cfg1, st1⟩ := s
    rw [hl] at e
    have := h tiny growing cfg1 st1 tiny_area (by simp [growing, Spec.ops, Wf, hk, hk']) hl 0 (by decide)
    simp only [Option.map_some, Option.some.injEq] at e
    rw [this] at e
    simp at e

/-- The hypotheses of the partial theorems are met: a life with a kill between two steps of a store (the
chunk was found, half the bytes copied), one between two steps of a sweep, and a restart. -/
def eventful : List Ev :=
  [.op (.add ka [1, 1, 1, 1] 50 0), .kill (.add ka [2, 2, 2, 2] 50 1) 9, .restart false true, .op (.add kb [3] 5 2), .op (.add kb [4] 50 3),
    .kill (.sweep 7) 3, .restart false false, .op (.add kb [5] 50 8)]

example : (life (tiny, blank tiny) eventful).map (fun s => (answers s.1 s.2 ka 8, answers s.1 s.2 kb 8)) =
    some (some [([1, 1, 1, 1], 42)], some [([5], 50)]) := by decide +kernel

/-- A way to decide `Between`. -/
def killB (s : Cfg × St) : Ev → Bool
  | .kill o k => (List.range ((plan s.1 s.2 o).length + 1)).any fun i => k == ((plan s.1 s.2 o).take i).flatten.length
  | _ => true

def betweenB (s : Cfg × St) : List Ev → Bool
  | [] => true
  | e :: evs =>
    killB s e && match event s e with
    | none => true
    | some s' => betweenB s' evs

theorem between_of : ∀ {evs : List Ev} {s : Cfg × St}, betweenB s evs = true → Between s evs := by
  intro evs
  induction evs with
  | nil => intro s _; trivial
  | cons e evs ih =>
    intro s h
    rw [betweenB, Bool.and_eq_true] at h
    obtain ⟨h1, h2⟩ := h
    refine ⟨fun o k he => ?_, fun s' hs' => ih ?_⟩
    · subst he
      have h1 : ((List.range ((plan s.1 s.2 o).length + 1)).any fun i => k == ((plan s.1 s.2 o).take i).flatten.length) = true := h1
      rw [List.any_eq_true] at h1
      obtain ⟨i, _, hi⟩ := h1
      exact ⟨i, by simpa using hi⟩
    · rw [hs'] at h2
      exact h2

example : Between (tiny, blank tiny) eventful := between_of (by decide +kernel)
example : ¬ (betweenB (tiny, blank tiny) publishing || betweenB (tiny, blank tiny) growing ||
    betweenB (tiny, blank tiny) ([.op (.add ka [1] 50 0), .op (.add ka [2] 5 0), .op (.add ka [3] 50 0)] ++ recycling)) = true := by decide +kernel

/-! ### C91: a kill while the file is made -/

/-- The claim: wherever the program is killed while it makes the file, a start that takes the file can look
something up. -/
def CreateSafe : Prop :=
  ∀ (cfg : Cfg) (k : Nat), Area cfg → (creating cfg k).ver = 23 → (creating cfg k).size = cfg.size →
    ∀ hash, ((creating cfg k).get hash).isSome

/-- It is false: the version and the size are stored first, the number of slots later, and a lookup divides
by it. -/
theorem createSafe_false : ¬ CreateSafe := by
  intro h
  have := h tiny 2 tiny_area (by decide) (by decide) 0
  revert this
  decide

/-- The proved part: once the number of slots is stored, lookups find nothing, as they should. -/
theorem create_safe_partial {cfg : Cfg} {k : Nat} (ha : Area cfg) (hk : 5 ≤ k) (hash : Nat) : (creating cfg k).get hash = some false := by
  have key : (creating cfg k).alloc = cfg.nslots := by
    obtain ⟨j, rfl⟩ := Nat.exists_eq_add_of_le hk
    unfold creating createW
    rw [List.append_assoc, List.take_append, List.foldl_append]
    have h5 : ∀ l : List (New → New), l.length = 5 → l.take (5 + j) = l := fun l hl => List.take_of_length_le (by omega)
    rw [h5 _ rfl]
    have keep : ∀ (l : List (New → New)) (n : New), (∀ w ∈ l, ∀ n, (w n).alloc = n.alloc) → (l.foldl (fun n w => w n) n).alloc = n.alloc := by
      intro l
      induction l with
      | nil => intro n _; rfl
      | cons w l ih => intro n h; rw [List.foldl_cons, ih _ (fun w hw => h w (by simp [hw]))]; exact h w (by simp) n
    rw [keep]
    · rfl
    · intro w hw n
      have hw := List.mem_of_mem_take hw
      simp only [List.mem_append, List.mem_replicate, List.mem_cons, List.not_mem_nil, or_false] at hw
      rcases hw with ⟨_, rfl⟩ | rfl | rfl <;> rfl
  unfold New.get
  rw [key, if_neg (by have := ha.1; omega)]

example : (creating tiny 8).get 12345 = some false := create_safe_partial tiny_area (by omega) _

/-! ### C92: an existing file -/

theorem getD_pad (f : List Byte) (n i : Nat) : (f ++ List.replicate n (0 : Byte)).getD i 0 = f.getD i 0 := by
  simp only [List.getD_eq_getElem?_getD, List.getElem?_append, List.getElem?_replicate]
  split
  · rfl
  · rw [List.getElem?_eq_none (by omega : f.length ≤ i)]; split <;> rfl

theorem getD_mapped (f : List Byte) {size i : Nat} (h : i < size) : (mapped f size).getD i 0 = f.getD i 0 := by
  unfold mapped
  split
  · rw [List.getD_eq_getElem?_getD, List.getElem?_append_left (by simp; omega), ← List.getD_eq_getElem?_getD, getD_pad]
  · simp only [List.getD_eq_getElem?_getD, List.getElem?_set]
    rw [if_neg (by omega)]

theorem head_iff (f : List Byte) (size : Nat) (hl : 8 ≤ f.length) : (le32 f 0 = 23 ∧ le32 f 4 = size) ↔ Spec.Head f size := by
  match f, hl with
  | a0 :: a1 :: a2 :: a3 :: a :: b :: c :: d :: rest, _ =>
    have h0 := a0.toNat_lt
    have h1 := a1.toNat_lt
    have h2 := a2.toNat_lt
    have h3 := a3.toNat_lt
    unfold le32 Spec.Head
    simp only [List.getD_cons_zero, List.getD_cons_succ, Nat.zero_add]
    constructor
    · rintro ⟨e1, e2⟩
      have x0 : a0 = 23 := UInt8.toNat_inj.1 (by show a0.toNat = 23; omega)
      have x1 : a1 = 0 := UInt8.toNat_inj.1 (by show a1.toNat = 0; omega)
      have x2 : a2 = 0 := UInt8.toNat_inj.1 (by show a2.toNat = 0; omega)
      have x3 : a3 = 0 := UInt8.toNat_inj.1 (by show a3.toNat = 0; omega)
      subst x0 x1 x2 x3
      exact ⟨a, b, c, d, rest, rfl, e2⟩
    · rintro ⟨a', b', c', d', rest', e, h⟩
      simp only [List.cons_append, List.nil_append, List.cons.injEq] at e
      obtain ⟨rfl, rfl, rfl, rfl, rfl, rfl, rfl, rfl, rfl⟩ := e
      exact ⟨by decide, h⟩

theorem reloadable_iff (f : List Byte) {size : Nat} (hs : 8 ≤ size) :
    reloadable (mapped f size) size = true ↔ Spec.Head (f ++ List.replicate (8 - f.length) 0) size := by
  rw [← head_iff _ _ (by simp; omega)]
  unfold reloadable le32
  simp only [getD_pad, getD_mapped f (show 0 < size by omega), getD_mapped f (show 0 + 1 < size by omega),
    getD_mapped f (show 0 + 2 < size by omega), getD_mapped f (show 0 + 3 < size by omega), getD_mapped f (show 4 < size by omega),
    getD_mapped f (show 4 + 1 < size by omega), getD_mapped f (show 4 + 2 < size by omega), getD_mapped f (show 4 + 3 < size by omega),
    Bool.and_eq_true, beq_iff_eq]

/-- C92.  A start takes an existing file exactly if it is told to and the file (with zeros behind it if it is
shorter) begins with the version of the format and the configured size. -/
theorem taken_iff {f : List Byte} {size : Nat} {reloadCache overwrite : Bool} (hs : 8 ≤ size) :
    (∃ g, start (some f) size reloadCache overwrite = .reload g) ↔
      reloadCache = true ∧ Spec.Head (f ++ List.replicate (8 - f.length) 0) size := by
  rw [← reloadable_iff f hs]
  unfold start
  dsimp only
  cases reloadCache with
  | false => simp
  | true =>
    simp only [if_true, true_and]
    cases hr : reloadable (mapped f size) size with
    | true => simp
    | false => cases overwrite <;> simp

/-- C92.  It is refused exactly if it does not, and may not be overwritten. -/
theorem refused_iff {f : List Byte} {size : Nat} {reloadCache overwrite : Bool} (hs : 8 ≤ size) :
    (∃ g, start (some f) size reloadCache overwrite = .refuse g) ↔
      reloadCache = true ∧ overwrite = false ∧ ¬ Spec.Head (f ++ List.replicate (8 - f.length) 0) size := by
  rw [← reloadable_iff f hs]
  unfold start
  dsimp only
  cases reloadCache with
  | false => simp
  | true =>
    simp only [if_true, true_and]
    cases hr : reloadable (mapped f size) size with
    | true => simp
    | false => cases overwrite <;> simp

/-- C92.  Taking or refusing a file leaves its first `size` bytes alone (with zeros behind a shorter one), and
of a longer one all but the byte behind these. -/
theorem left_alone_partial {f g : List Byte} {size : Nat} {reloadCache overwrite : Bool}
    (h : start (some f) size reloadCache overwrite = .reload g ∨ start (some f) size reloadCache overwrite = .refuse g) :
    g.take size = f.take size ++ List.replicate (size - f.length) 0 ∧ g.drop (size + 1) = f.drop (size + 1) ∧ g.length = max f.length (size + 1) := by
  have e : g = mapped f size := by
    unfold start at h
    dsimp only at h
    cases reloadCache with
    | false => simp at h
    | true =>
      simp only [if_true] at h
      cases hr : reloadable (mapped f size) size <;> rw [hr] at h <;> cases overwrite <;> simp at h <;> exact h.symm
  subst e
  unfold mapped
  split
  · rename_i hl
    refine ⟨?_, ?_, ?_⟩
    · rw [List.take_append_of_le_length (by simp; omega), List.take_of_length_le (by simp; omega), List.take_of_length_le hl]
    · rw [List.drop_of_length_le (by simp; omega), List.drop_of_length_le (by omega)]
    · simp; omega
  · rename_i hl
    refine ⟨?_, ?_, ?_⟩
    · rw [List.take_set_of_le (Nat.le_refl _), show size - f.length = 0 from by omega, List.replicate_zero, List.append_nil]
    · rw [List.drop_set_of_lt (by omega)]
    · simp; omega

/-- The full claim: a file that is refused is left as it is. -/
def RefusedUnchanged : Prop :=
  ∀ (f g : List Byte) (size : Nat), 102400 ≤ size → start (some f) size true false = .refuse g → g = f

/-- C92 is false of the code: the file is opened and a byte written behind the area before the header is
looked at.  So a file of another kind named by mistake is changed, or made longer. -/
theorem refusedUnchanged_false : ¬ RefusedUnchanged := by
  intro h
  obtain ⟨g, hg⟩ := (refused_iff (f := [1]) (size := 102400) (reloadCache := true) (overwrite := false) (by omega)).2
    ⟨rfl, rfl, by rintro ⟨a, b, c, d, rest, e, _⟩; simp at e⟩
  have h1 := h [1] g 102400 (by omega) hg
  have h2 := (left_alone_partial (.inr hg)).2.2
  rw [h1] at h2
  simp at h2

/-- A refused file, and an accepted one. -/
example : start (some (str "PNG.....")) 16 true false = .refuse (str "PNG....." ++ List.replicate 9 0) := by decide +kernel
example : start (some [23, 0, 0, 0, 16, 0, 0, 0]) 16 true false = .reload ([23, 0, 0, 0, 16, 0, 0, 0] ++ List.replicate 9 0) := by decide +kernel
example : start (some [22, 0, 0, 0, 16, 0, 0, 0]) 16 true true = .create := by decide +kernel

/-- Nothing but these eight bytes is looked at. -/
theorem check_blind {f f' : List Byte} {size : Nat} (hs : 8 ≤ size) (h : f.take 8 = f'.take 8) (hl : 8 ≤ f.length) (hl' : 8 ≤ f'.length) :
    (∃ g, start (some f) size true false = .reload g) ↔ (∃ g, start (some f') size true false = .reload g) := by
  rw [taken_iff hs, taken_iff hs, show 8 - f.length = 0 from by omega, show 8 - f'.length = 0 from by omega]
  simp only [List.replicate_zero, List.append_nil, true_and]
  have key : ∀ {f f' : List Byte}, f.take 8 = f'.take 8 → Spec.Head f size → Spec.Head f' size := by
    rintro f f' h ⟨a, b, c, d, rest, rfl, hsz⟩
    refine ⟨a, b, c, d, f'.drop 8, ?_, hsz⟩
    rw [show ([23, 0, 0, 0, a, b, c, d] : List Byte) = f'.take 8 by rw [← h]; rfl, List.take_append_drop]
  exact ⟨key h, key h.symm⟩

/-- And a file with these bytes can hold anything, also a record that points to itself: no lookup of its slot
ends. -/
theorem damaged_loops : ∃ (cfg : Cfg) (st : St) (item : List Byte), Area cfg ∧ st.ht.used = 1 ∧
    ∀ fuel, find cfg st item 0 fuel (st.ht.slots 0) = none := by
  refine ⟨tiny, ⟨⟨fun _ => ⟨0, 0, 128, 5, 0, 16, 3⟩, 1, fun _ => 0, -1⟩, 144, fun _ => 0⟩, [97], tiny_area, rfl, fun fuel => ?_⟩
  induction fuel with
  | zero => rfl
  | succ n ih =>
    rw [find]
    exact ih

/-! ### C93: the sweep beside the other threads -/

/-- The full claim: a sweep that runs beside the storing of a record, at a time at which the record lives,
leaves it (and all others that live). -/
def SweepKeeps : Prop :=
  ∀ (cfg cfg1 : Cfg) (evs : List Ev) (st1 st2 : St) (key data : List Byte) (ttl k n : Nat) (now s : Int), Area cfg →
    cfg.ignoreTTL = false → cfg.parallel = false → Spec.Calm evs → (∀ i p, Ev.restart i p ∉ evs) → (∀ o ∈ Spec.ops evs, Wf o) → Wf (.add key data ttl now) →
    life (cfg, blank cfg) evs = some (cfg1, st1) → race cfg1 st1 (.add key data ttl now) k n s = some st2 → now ≤ s → s < now + ttl →
    ∀ key' t, (0 : Byte) ∉ key' → s ≤ t → (step cfg1 st1 (.add key data ttl now)).bind (answers cfg1 · key' t) = answers cfg1 st2 key' t

/-- C93 is false of the code: the test of the sweep is made without the lock, and a new record has its
lifetime before it has its time.  If the sweep tests it between these stores it takes it for one of 1970,
and removes it. -/
theorem sweepKeeps_false : ¬ SweepKeeps := by
  intro h
  have hk := ka_ok
  have e : (race tiny (blank tiny) (.add ka [1] 50 1000) 24 0 1000).map (answers tiny · ka 1000) = some (some []) := by decide +kernel
  have e' : (step tiny (blank tiny) (.add ka [1] 50 1000)).bind (answers tiny · ka 1000) = some [([1], 50)] := by decide +kernel
  cases hr : race tiny (blank tiny) (.add ka [1] 50 1000) 24 0 1000 with
  | none => rw [hr] at e; simp at e
  | some st2 =>
    rw [hr] at e
    have := h tiny tiny [] (blank tiny) st2 ka [1] 50 24 0 1000 1000 tiny_area rfl rfl (by intro _ _ h; simp at h) (by simp)
      (by simp [Spec.ops]) ⟨hk, by omega⟩ rfl hr (by omega) (by omega) ka 1000 hk (by omega)
    rw [e'] at this
    simp only [Option.map_some, Option.some.injEq] at e
    rw [e] at this
    simp at this

/-- C93, proved part.  If the test is made between two steps of the storing thread (not between the stores
of the lifetime and the time), the sweep leaves every record that lives, the new one included. -/
theorem sweep_keeps_partial {cfg cfg1 : Cfg} {evs : List Ev} {st1 : St} {key data : List Byte} {ttl k i n : Nat} {now s : Int}
    (ha : Area cfg) (wf : ∀ o ∈ Spec.ops evs, Wf o) (wo : Wf (.add key data ttl now))
    (hb : Between (cfg, blank cfg) evs) (hl : life (cfg, blank cfg) evs = some (cfg1, st1)) (hi : cfg1.ignoreTTL = false) (hp : cfg1.parallel = false)
    (hk : k = ((plan cfg1 st1 (.add key data ttl now)).take i).flatten.length) (hs : s < now + ttl) :
    ∃ st2, race cfg1 st1 (.add key data ttl now) k n s = some st2 ∧
      ∀ key' t, (0 : Byte) ∉ key' → s ≤ t → (step cfg1 st1 (.add key data ttl now)).bind (answers cfg1 · key' t) = answers cfg1 st2 key' t := by
  obtain ⟨cfg1', st1', es, e, hc1, g1, _⟩ := life_ok False False (Spec.ops evs) evs (cfgOk_of_area ha) (blank_good (cfgOk_of_area ha))
    (fun o h => ⟨wf o h, h⟩) hb False.elim False.elim False.elim False.elim (by simp)
  rw [hl] at e
  cases e
  obtain ⟨st2, es1, st3, es2, e1, g2, e2, g3, k3⟩ := race_ok (n := n) hc1 g1 hp wo hk hs
  refine ⟨st3, e2, fun key' t h0 ht => ?_⟩
  rw [e1]
  show answers cfg1 st2 key' t = _
  rw [answers_ok hc1 g2.inv h0, answers_ok hc1 g3.inv h0, killE_sweep_answers k3 hi ht]

/-- A test after the chunk was taken and before the record is published: the sweep finds the old record of the
other node, which has expired, and removes it. -/
example : (race tiny (((step tiny (blank tiny) (.add kb [7] 5 0))).getD (blank tiny)) (.add ka [1] 50 10) 6 0 10).map
    (fun s => (answers tiny s ka 10, answers tiny s kb 4)) = some (some [([1], 50)], some []) ∧
    6 = ((plan tiny ((step tiny (blank tiny) (.add kb [7] 5 0)).getD (blank tiny)) (.add ka [1] 50 10)).take 1).flatten.length := by decide +kernel

end Verif.CacheFile
