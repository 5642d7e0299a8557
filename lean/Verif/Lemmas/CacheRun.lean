import Verif.Lemmas.Cache
import Verif.Spec.Cache
/-! Histories of the cache. -/

namespace Verif.Cache
open Verif.CacheHT Spec

variable {cfg : Cfg} {st : St} {es : List Entry}

theorem init_ok (hc : CfgOk cfg) (st : St) : Inv cfg (St.init cfg st) [] := by
  refine ⟨[], [], ⟨fun s _ => rfl, ⟨rfl, by simp, by simp, by simp⟩, by simp, fun i => ?_, by simp, by simp, ?_, ?_, ?_⟩, by simp,
    Nat.le_refl _, ?_⟩
  · simp [St.init, HT.init]
  · intro h; simp [St.init, HT.init] at h
  · intro i h; simp [St.init, HT.init] at h
  · simp only [St.init, HT.init, endOf, if_true]; have := hc.room; omega
  · simp only [St.init, HT.init]; have := hc.room; omega

/-- The answers the entries give. -/
def answersE (cfg : Cfg) (es : List Entry) (key : List Byte) (now : Int) : List (List Byte × Nat) :=
  ((es.filter (matching cfg key now)).filter fun e => e.ttl ≠ 0).map fun e =>
    (e.data, if cfg.ignoreTTL then e.ttl else leftE now e)

theorem answers_ok (hc : CfgOk cfg) (inv : Inv cfg st es) {key : List Byte} (h0 : (0 : Byte) ∉ key) (now : Int) :
    answers cfg st key now = some (answersE cfg es key now) := by
  obtain ⟨X, F, c, _⟩ := inv
  unfold answers
  rw [findAll_key hc c h0]
  unfold answersE
  dsimp only
  rw [List.filter_map, List.map_map]
  congr 1
  have hf : ((es.filter (matching cfg key now)).filter ((fun i => decide ((st.ht.nodes i).ttl ≠ 0)) ∘ Entry.idx)) =
      (es.filter (matching cfg key now)).filter fun e => e.ttl ≠ 0 := by
    apply List.filter_congr
    intro e he
    have l := c.live e (List.mem_filter.1 he).1
    simp only [Function.comp_apply]
    rw [l.ttl]
  rw [hf]
  apply List.map_congr_left
  intro e he
  have he := (List.mem_filter.1 he).1
  have l := c.live e (List.mem_filter.1 he).1
  have hk : e.key = key := by
    have := (List.mem_filter.1 he).2
    simp only [matching, Bool.and_eq_true, beq_iff_eq] at this; exact this.1
  simp only [Function.comp_apply]
  rw [l.ttl, l.remaining, l.used]
  congr 1
  have hb := l.bytes
  have hlen : e.item.length = (key.length + 1) + e.data.length := by simp [Entry.item, hk]; omega
  rw [hlen, peek_add] at hb
  have hitem : e.item = (key ++ [0]) ++ e.data := by simp [Entry.item, hk]
  rw [hitem] at hb
  have := (List.append_inj hb (by simp [peek_length])).2
  rw [hlen]
  rw [show key.length + 1 + e.data.length + 1 - (1 + key.length + 1) = e.data.length from by omega,
    show (st.ht.nodes e.idx).offset + 1 + key.length + 1 = (st.ht.nodes e.idx).offset + 1 + (key.length + 1) from by omega]
  exact this

/-- The entries after an operation, as far as the history decides them. -/
inductive StepE (cfg : Cfg) (es : List Entry) : Op → List Entry → Prop
  | keep (o : Op) (h : ∀ now, o ≠ .sweep now) : StepE cfg es o es
  | add (i : Nat) (key data : List Byte) (ttl : Nat) (now : Int) (ht : ttl ≠ 0) (hd : NoDup cfg es key data now) :
      StepE cfg es (.add key data ttl now) (⟨i, key, data, addTTL cfg es key ttl now, now⟩ :: addOld cfg es key ttl now)
  | sweep (now : Int) : StepE cfg es (.sweep now) (es.filter fun e => !expiredE now e)

theorem step_ok (hc : CfgOk cfg) (inv : Inv cfg st es) {o : Op} (wf : Wf o) :
    ∃ st' es', step cfg st o = some st' ∧ Inv cfg st' es' ∧ StepE cfg es o es' ∧ Inside cfg st st' ∧
      st'.cend + 32 * st'.ht.used ≤ st.cend + 32 * st.ht.used + cost o := by
  cases o with
  | add key data ttl now =>
    obtain ⟨st', out, e, r⟩ := addItem_ok hc inv (key := key) (data := data) wf.1 ttl now
    unfold step
    dsimp only
    rw [e]
    have hself : Inside cfg st st := fun k hk => absurd rfl hk
    cases r with
    | duplicate => exact ⟨st, es, rfl, inv, .keep _ (by simp), hself, by omega⟩
    | zeroTTL => exact ⟨st, es, rfl, inv, .keep _ (by simp), hself, by omega⟩
    | noRoom _ inv' hm he hu => exact ⟨st', es, rfl, inv', .keep _ (by simp), fun k hk => absurd (by rw [hm]) hk, by rw [he, hu]; omega⟩
    | stored _ i inv' ht hd hin hg =>
      refine ⟨st', _, rfl, inv', .add i key data ttl now ht hd, hin, ?_⟩
      unfold cost
      rcases hg with ⟨h1, h2⟩ | ⟨h1, h2⟩
      · rw [h1, h2]; omega
      · rw [h1, h2]
        unfold roundUp
        simp only [List.length_append, List.length_cons]
        rw [show key.length + (data.length + 1) + 1 + 15 = key.length + data.length + 2 + 15 from by omega]
        omega
  | sweep now =>
    obtain ⟨st', e, inv', hin, hu, he, _⟩ := sweep_ok hc inv now
    exact ⟨st', _, e, inv', .sweep now, hin, by omega⟩

inductive RunE (cfg : Cfg) : List Entry → List Op → List Entry → Prop
  | nil (es : List Entry) : RunE cfg es [] es
  | cons {es es' es'' : List Entry} {o : Op} {os : List Op} (h : StepE cfg es o es') (t : RunE cfg es' os es'') : RunE cfg es (o :: os) es''

theorem run_ok (hc : CfgOk cfg) : ∀ (ops : List Op) {st : St} {es : List Entry}, Inv cfg st es → (∀ o ∈ ops, Wf o) →
    ∃ st' es', run cfg st ops = some st' ∧ Inv cfg st' es' ∧ RunE cfg es ops es' ∧
      st'.cend + 32 * st'.ht.used ≤ st.cend + 32 * st.ht.used + total ops := by
  intro ops
  induction ops with
  | nil => intro st es inv _; exact ⟨st, es, rfl, inv, .nil _, by omega⟩
  | cons o os ih =>
    intro st es inv wf
    obtain ⟨st1, es1, e1, inv1, s1, _, b1⟩ := step_ok hc inv (wf o (by simp))
    obtain ⟨st2, es2, e2, inv2, s2, b2⟩ := ih inv1 (fun o ho => wf o (by simp [ho]))
    refine ⟨st2, es2, ?_, inv2, .cons s1 s2, ?_⟩
    · rw [run, e1]; exact e2
    · simp only [total, List.map_cons, List.sum_cons] at b2 ⊢; omega

/-! ### without gaps -/

/-- The blocks lie one behind the other from the header to the end. -/
def Tight (cfg : Cfg) (st : St) : Prop :=
  (0 < st.ht.used → (st.ht.nodes 0).offset = cfg.hdr) ∧
  (∀ i, i + 1 < st.ht.used → (st.ht.nodes (i + 1)).offset = (st.ht.nodes i).offset + (st.ht.nodes i).length) ∧
  st.cend = endOf cfg st.ht

theorem init_tight (st : St) : Tight cfg (St.init cfg st) :=
  ⟨fun h => absurd h (by simp [St.init, HT.init]), fun i h => absurd h (by simp [St.init, HT.init]), by simp [St.init, HT.init, endOf]⟩

theorem Tight.geo {st' : St} (t : Tight cfg st) (g : Geo st st') : Tight cfg st' := by
  obtain ⟨h1, h2, h3⟩ := t
  rcases g with ⟨g1, g2, g3⟩ | ⟨g1, g2, g3, g4⟩
  · refine ⟨fun h => ?_, fun i h => ?_, ?_⟩
    · rw [(g3 0).1]; exact h1 (by omega)
    · rw [(g3 _).1, (g3 _).1, (g3 _).2]; exact h2 i (by omega)
    · rw [g2, h3]; exact (endOf_congr g1 (fun j => (g3 j).1) (fun j => (g3 j).2)).symm
  · unfold endOf at h3
    refine ⟨fun h => ?_, fun i h => ?_, ?_⟩
    · by_cases e : st.ht.used = 0
      · rw [e] at g2; rw [g2, h3, if_pos e]
      · rw [(g4 0 (by omega)).1]; exact h1 (by omega)
    · by_cases e : i + 1 = st.ht.used
      · rw [e, g2, (g4 i (by omega)).1, (g4 i (by omega)).2, h3, if_neg (by omega), show st.ht.used - 1 = i from by omega]
      · rw [(g4 _ (by omega)).1, (g4 _ (by omega)).1, (g4 _ (by omega)).2]; exact h2 i (by omega)
    · unfold endOf
      rw [if_neg (by omega), g1, Nat.add_sub_cancel, g2, g3]

theorem step_tight (hc : CfgOk cfg) (inv : Inv cfg st es) {o : Op} (wf : Wf o) {st' : St} (h : step cfg st o = some st')
    (t : Tight cfg st) : Tight cfg st' := by
  cases o with
  | add key data ttl now =>
    obtain ⟨s, out, e, r⟩ := addItem_ok hc inv (key := key) (data := data) wf.1 ttl now
    unfold step at h
    dsimp only at h
    rw [e] at h
    cases h
    cases r with
    | duplicate => exact t
    | zeroTTL => exact t
    | noRoom _ _ _ _ _ _ _ _ _ hgeo => exact t.geo hgeo
    | stored _ _ _ _ _ _ _ _ hgeo => exact t.geo hgeo
  | sweep now =>
    obtain ⟨s, e, _, _, hu, _, _, hgeo, hcase⟩ := sweep_ok hc inv now
    unfold step at h
    dsimp only at h
    rw [e] at h
    cases h
    rcases hcase with rfl | hcase
    · exact t
    · refine ⟨fun h => ?_, fun i h => ?_, hcase⟩
      · rw [(hgeo 0).1]; exact t.1 (by omega)
      · rw [(hgeo _).1, (hgeo _).1, (hgeo _).2]; exact t.2.1 i (by omega)

theorem run_tight (hc : CfgOk cfg) : ∀ (ops : List Op) {st st' : St} {es : List Entry}, Inv cfg st es → (∀ o ∈ ops, Wf o) →
    run cfg st ops = some st' → Tight cfg st → Tight cfg st' := by
  intro ops
  induction ops with
  | nil => intro st st' es _ _ h t; cases h; exact t
  | cons o os ih =>
    intro st st' es inv wf h t
    obtain ⟨st1, es1, e1, inv1, _⟩ := step_ok hc inv (wf o (by simp))
    rw [run, e1] at h
    exact ih inv1 (fun o ho => wf o (by simp [ho])) h (step_tight hc inv (wf o (by simp)) e1 t)

theorem run_append (ops ops' : List Op) (st : St) :
    run cfg st (ops ++ ops') = (run cfg st ops).bind fun s => run cfg s ops' := by
  induction ops generalizing st with
  | nil => rfl
  | cons o os ih =>
    simp only [List.cons_append, run]
    cases step cfg st o with
    | none => rfl
    | some s => exact ih s

/-! ### consequences for the entries -/

/-- Where an entry comes from. -/
def Origin (cfg : Cfg) (ops : List Op) (e : Entry) : Prop :=
  ∃ ttl t, Op.add e.key e.data ttl t ∈ ops ∧ ttl ≠ 0 ∧
    (cfg.ignoreTTL = false → e.added + e.ttl ≤ t + ttl) ∧ (cfg.parallel = false → e.ttl = ttl ∧ e.added = t)

theorem Origin.mono {ops ops' : List Op} {e : Entry} (h : Origin cfg ops e) (hs : ∀ o ∈ ops, o ∈ ops') : Origin cfg ops' e := by
  obtain ⟨ttl, t, h1, h2⟩ := h
  exact ⟨ttl, t, hs _ h1, h2⟩

theorem leftE_le {e : Entry} {now : Int} (h : now - e.added < e.ttl) : (leftE now e : Int) ≤ e.added + e.ttl - now := by
  unfold leftE
  have h1 : (0 : Int) ≤ ((e.ttl : Int) - (now - e.added)) := by omega
  omega

theorem minLeft_le (es : List Entry) (key : List Byte) (ttl : Nat) (now : Int) :
    minLeft cfg es key ttl now ≤ ttl ∧ ∀ e ∈ es, matching cfg key now e = true → minLeft cfg es key ttl now ≤ leftE now e := by
  unfold minLeft
  have gen : ∀ (l : List Entry) (m : Nat), l.foldl (fun m e => if m > leftE now e then leftE now e else m) m ≤ m ∧
      ∀ e ∈ l, l.foldl (fun m e => if m > leftE now e then leftE now e else m) m ≤ leftE now e := by
    intro l
    induction l with
    | nil => intro m; exact ⟨Nat.le_refl _, by simp⟩
    | cons a l ih =>
      intro m
      simp only [List.foldl_cons]
      obtain ⟨h1, h2⟩ := ih (if m > leftE now a then leftE now a else m)
      refine ⟨?_, fun e he => ?_⟩
      · split at h1
        · rename_i h; rw [if_pos h]; omega
        · rename_i h; rw [if_neg h]; exact h1
      · rcases List.mem_cons.1 he with rfl | he
        · split at h1
          · rename_i h; rw [if_pos h]; exact h1
          · rename_i h; rw [if_neg h]; omega
        · exact h2 e he
  obtain ⟨h1, h2⟩ := gen (es.filter (matching cfg key now)) ttl
  exact ⟨h1, fun e he hm => h2 e (List.mem_filter.2 ⟨he, hm⟩)⟩

theorem stepE_origin {ops : List Op} {o : Op} {es' : List Entry} (h : StepE cfg es o es') (ho : o ∈ ops)
    (hes : ∀ e ∈ es, Origin cfg ops e) : ∀ e ∈ es', Origin cfg ops e := by
  cases h with
  | keep => exact hes
  | sweep now => intro e he; exact hes e (List.mem_filter.1 he).1
  | add i key data ttl now ht hd =>
    intro e he
    rcases List.mem_cons.1 he with rfl | he
    · refine ⟨ttl, now, ho, ht, fun _ => ?_, fun hp => ⟨by simp [addTTL, hp], rfl⟩⟩
      unfold addTTL
      dsimp only
      split
      · have := (minLeft_le (cfg := cfg) es key ttl now).1; omega
      · omega
    · unfold addOld at he
      split at he
      · rename_i hp
        simp only [List.mem_map] at he
        obtain ⟨d, hd', rfl⟩ := he
        obtain ⟨t0, n0, h1, h2, h3, h4⟩ := hes d hd'
        refine ⟨t0, n0, by rw [touch_key, touch_data]; exact h1, h2, fun hi => ?_, fun hp' => by rw [hp] at hp'; simp at hp'⟩
        unfold Entry.touch
        split
        · rename_i hm
          dsimp only
          have hle := (minLeft_le (cfg := cfg) es key ttl now).2 d hd' hm
          have hfr : now - d.added < d.ttl := by
            simp only [matching, freshE, hi, Bool.false_or, Bool.and_eq_true, decide_eq_true_eq] at hm; exact hm.2
          have := leftE_le hfr
          have := h3 hi
          omega
        · exact h3 hi
      · exact hes e he

theorem runE_origin {ops os : List Op} {es es' : List Entry} (h : RunE cfg es os es') (ho : ∀ o ∈ os, o ∈ ops)
    (hes : ∀ e ∈ es, Origin cfg ops e) : ∀ e ∈ es', Origin cfg ops e := by
  induction h with
  | nil => exact hes
  | cons s _ ih =>
    exact ih (fun o h => ho o (by simp [h])) (stepE_origin s (ho _ (by simp)) hes)

/-- An entry that is not touched stays. -/
theorem stepE_stays {o : Op} {es' : List Entry} {e : Entry} (h : StepE cfg es o es') (he : e ∈ es)
    (hp : cfg.parallel = false ∨ ∀ data ttl now, o ≠ .add e.key data ttl now)
    (hs : ∀ now, o = .sweep now → expiredE now e = false) : e ∈ es' := by
  cases h with
  | keep => exact he
  | sweep now => exact List.mem_filter.2 ⟨he, by simp [hs now rfl]⟩
  | add i key data ttl now ht hd =>
    refine List.mem_cons_of_mem _ ?_
    unfold addOld
    split
    · rename_i hpar
      rcases hp with hp | hp
      · rw [hpar] at hp; simp at hp
      · refine List.mem_map.2 ⟨e, he, ?_⟩
        have : matching cfg key now e = false := by
          have : e.key ≠ key := by rintro rfl; exact hp _ _ _ rfl
          simp [matching, this]
        rw [this]; rfl
    · exact he

theorem runE_stays {os : List Op} {es es' : List Entry} {e : Entry} (h : RunE cfg es os es') (he : e ∈ es)
    (hp : cfg.parallel = false ∨ ∀ data ttl now, Op.add e.key data ttl now ∉ os)
    (hs : ∀ now, Op.sweep now ∈ os → expiredE now e = false) : e ∈ es' := by
  induction h with
  | nil => exact he
  | cons s _ ih =>
    refine ih (stepE_stays s he ?_ (fun now h => hs now (by simp [h]))) ?_ (fun now h => hs now (by simp [h]))
    · rcases hp with hp | hp
      · exact .inl hp
      · exact .inr (fun d t n h => hp d t n (by simp [h]))
    · rcases hp with hp | hp
      · exact .inl hp
      · exact .inr (fun d t n h => hp d t n (by simp [h]))

theorem mem_answersE {key d : List Byte} {now : Int} {r : Nat} :
    (d, r) ∈ answersE cfg es key now ↔ ∃ e ∈ es, e.key = key ∧ e.data = d ∧ freshE cfg now e = true ∧ e.ttl ≠ 0 ∧
      r = if cfg.ignoreTTL then e.ttl else leftE now e := by
  unfold answersE
  simp only [List.mem_map, List.mem_filter, matching, Bool.and_eq_true, beq_iff_eq, decide_eq_true_eq, Prod.mk.injEq]
  constructor
  · rintro ⟨e, ⟨⟨h1, h2, h3⟩, h4⟩, h5, h6⟩; exact ⟨e, h1, h2, h5, h3, h4, h6.symm⟩
  · rintro ⟨e, h1, h2, h3, h4, h5, h6⟩; exact ⟨e, ⟨⟨h1, h2, h4⟩, h5⟩, h3, h6.symm⟩

theorem cfgOk_of_area (h : Area cfg) : CfgOk cfg := ⟨h.1, h.2⟩

end Verif.Cache
