import Verif.Lemmas.CacheFile
import Verif.Spec.CacheFile
/-! The life of a cache file. -/

namespace Verif.CacheFile
open Verif.CacheHT Verif.Cache Verif.Cache.Spec

variable {cfg : Cfg} {st : St} {es : List Entry}

theorem plan_ok (hc : CfgOk cfg) (g : Good cfg st es) {o : Op} (wf : Wf o) :
    Along (fun s => ∃ es', Good cfg s es' ∧ KillE cfg es o es') (plan cfg st o) st ∧
      step cfg st o = some (writes st (plan cfg st o).flatten) := by
  cases o with
  | add key data ttl now =>
    obtain ⟨h1, out, h2⟩ := addW_ok hc g (key := key) (data := data) wf.1 ttl now
    refine ⟨h1, ?_⟩
    unfold step
    dsimp only
    rw [h2]; rfl
  | sweep now => exact sweepW_ok hc g now

/-- The end of an operation. -/
theorem step_good (hc : CfgOk cfg) (g : Good cfg st es) {o : Op} (wf : Wf o) :
    ∃ st' es', step cfg st o = some st' ∧ Good cfg st' es' ∧ KillE cfg es o es' := by
  obtain ⟨h1, h2⟩ := plan_ok hc g wf
  have := along_take h1 (plan cfg st o).length
  rw [List.take_length] at this
  obtain ⟨es', h3, h4⟩ := this
  exact ⟨_, es', h2, h3, h4⟩

/-- A kill between two steps. -/
theorem kill_good (hc : CfgOk cfg) (g : Good cfg st es) {o : Op} (wf : Wf o) {i k : Nat}
    (hk : k = ((plan cfg st o).take i).flatten.length) : ∃ es', Good cfg (killed cfg st o k) es' ∧ KillE cfg es o es' := by
  have := along_take (plan_ok hc g wf).1 i
  have e : (plan cfg st o).flatten.take k = ((plan cfg st o).take i).flatten := by
    have h : (plan cfg st o).flatten = ((plan cfg st o).take i).flatten ++ ((plan cfg st o).drop i).flatten := by
      rw [← List.flatten_append, List.take_append_drop]
    rw [h, hk, List.take_left]
  unfold killed
  rw [e]; exact this

theorem Good.flags (g : Good cfg st es) (i p : Bool) : Good { cfg with ignoreTTL := i, parallel := p } st es := by
  obtain ⟨⟨X, F, c⟩, hf, hq⟩ := g
  refine ⟨⟨X, F, ⟨c.slots, c.free, c.nodup, c.cover, fun e he => ?_, c.freeTTL, c.first, c.cont, c.room⟩⟩, hf, hq⟩
  have l := c.live e he
  exact ⟨l.slot, l.ttl, l.added, l.used, l.fits, l.bytes, l.key⟩

theorem blank_good (hc : CfgOk cfg) : Good cfg (blank cfg) [] := by
  obtain ⟨X, F, c, _, hf⟩ := init_ok hc ⟨⟨fun _ => ⟨0, 0, 0, 0, 0, 0, 0⟩, 0, fun _ => 0, 0⟩, 0, fun _ => 0⟩
  exact ⟨⟨X, F, c⟩, hf, fun _ _ => rfl⟩

/-- Where an entry of a file comes from. -/
def OriginK (apart single : Prop) (ops : List Op) (e : Entry) : Prop :=
  ∃ ttl t, Op.add e.key e.data ttl t ∈ ops ∧ (apart → e.added + e.ttl ≤ t + ttl) ∧
    (single → e.ttl = 0 ∨ e.ttl = ttl ∧ e.added = t)

theorem OriginK.mono {a s : Prop} {ops ops' : List Op} {e : Entry} (h : OriginK a s ops e) (hs : ∀ o ∈ ops, o ∈ ops') : OriginK a s ops' e := by
  obtain ⟨ttl, t, h1, h2⟩ := h
  exact ⟨ttl, t, hs _ h1, h2⟩

theorem touch_origin {a s : Prop} {ops : List Op} {key : List Byte} {ttl : Nat} {now : Int} {d : Entry} (hd : d ∈ es) {b : Bool}
    (hb : b = true → matching cfg key now d = true) (hp : cfg.parallel = true) (ha : a → cfg.ignoreTTL = false ∨ cfg.parallel = false)
    (hs : s → cfg.parallel = false) (h : OriginK a s ops d) : OriginK a s ops (d.touch b (minLeft cfg es key ttl now) now) := by
  obtain ⟨t0, n0, h1, h3, h4⟩ := h
  refine ⟨t0, n0, by rw [touch_key, touch_data]; exact h1, fun x => ?_, fun x => by have := hs x; rw [hp] at this; simp at this⟩
  have hi : cfg.ignoreTTL = false := by
    rcases ha x with h | h
    · exact h
    · rw [hp] at h; simp at h
  unfold Entry.touch
  split
  · rename_i hbt
    have hm := hb hbt
    dsimp only
    have hle := (minLeft_le (cfg := cfg) es key ttl now).2 d hd hm
    have hfr : now - d.added < d.ttl := by
      simp only [matching, freshE, hi, Bool.false_or, Bool.and_eq_true, decide_eq_true_eq] at hm; exact hm.2
    have := leftE_le hfr
    have := h3 x
    omega
  · exact h3 x

theorem killE_origin {a s : Prop} {ops : List Op} {o : Op} {es' : List Entry} (h : KillE cfg es o es') (ho : o ∈ ops)
    (ha : a → cfg.ignoreTTL = false ∨ cfg.parallel = false) (hs : s → cfg.parallel = false)
    (hes : ∀ e ∈ es, OriginK a s ops e) : ∀ e ∈ es', OriginK a s ops e := by
  cases h with
  | nothing => exact hes
  | done h =>
    cases h with
    | keep => exact hes
    | sweep now => intro e he; exact hes e (List.mem_filter.1 he).1
    | add i key data ttl now ht hd =>
      intro e he
      rcases List.mem_cons.1 he with rfl | he
      · refine ⟨ttl, now, ho, fun _ => ?_, fun hp => .inr ⟨by simp [addTTL, hs hp], rfl⟩⟩
        unfold addTTL
        dsimp only
        split
        · have := (minLeft_le (cfg := cfg) es key ttl now).1; omega
        · omega
      · unfold addOld at he
        split at he
        · rename_i hp
          simp only [List.mem_map] at he
          obtain ⟨d, hd', rfl⟩ := he
          exact touch_origin hd' (fun h => h) hp ha hs (hes d hd')
        · exact hes e he
  | share key data ttl now hp J =>
    intro e he
    simp only [List.mem_map] at he
    obtain ⟨d, hd', rfl⟩ := he
    exact touch_origin hd' (fun h => by rw [Bool.and_eq_true] at h; exact h.1) hp ha hs (hes d hd')
  | sweep now p z hp hz =>
    intro e he
    simp only [List.mem_map, List.mem_filter] at he
    obtain ⟨d, ⟨hd', _⟩, rfl⟩ := he
    obtain ⟨ttl, t, h1, h2, h3⟩ := hes d hd'
    split
    · exact ⟨ttl, t, h1, fun x => by have := h2 x; dsimp only; omega, fun _ => .inl rfl⟩
    · exact ⟨ttl, t, h1, h2, h3⟩

/-- An entry that is not touched stays. -/
theorem killE_stays {o : Op} {es' : List Entry} {e : Entry} (h : KillE cfg es o es') (he : e ∈ es)
    (hp : cfg.parallel = false ∨ ∀ data ttl now, o ≠ .add e.key data ttl now)
    (hs : ∀ now, o = .sweep now → expiredE now e = false) : e ∈ es' := by
  cases h with
  | nothing => exact he
  | done h => exact stepE_stays h he hp hs
  | share key data ttl now hpar J =>
    rcases hp with hp | hp
    · rw [hpar] at hp; simp at hp
    · refine List.mem_map.2 ⟨e, he, ?_⟩
      have : matching cfg key now e = false := by
        have : e.key ≠ key := by rintro rfl; exact hp _ _ _ rfl
        simp [matching, this]
      rw [this]; rfl
  | sweep now p z hp' hz =>
    have hne := hs now rfl
    refine List.mem_map.2 ⟨e, List.mem_filter.2 ⟨he, ?_⟩, ?_⟩
    · cases hx : p e with
      | true => rfl
      | false => have := hp' e he hx; rw [hne] at this; simp at this
    · cases hx : z e with
      | true => have := hz e he hx; rw [hne] at this; simp at this
      | false => rfl

theorem answersE_cons (a : Entry) (l : List Entry) {key : List Byte} {t : Int} :
    answersE cfg (a :: l) key t = answersE cfg [a] key t ++ answersE cfg l key t := by
  unfold answersE
  rw [show a :: l = [a] ++ l from rfl, List.filter_append, List.filter_append, List.map_append]

theorem killE_sweep_answers {now t : Int} {es' : List Entry} {key : List Byte} (h : KillE cfg es (.sweep now) es') (hi : cfg.ignoreTTL = false)
    (ht : now ≤ t) : answersE cfg es' key t = answersE cfg es key t := by
  have hexp : ∀ e, expiredE now e = true → matching cfg key t e = false := by
    intro e he
    simp only [expiredE, decide_eq_true_eq] at he
    simp only [matching, freshE, hi, Bool.false_or, Bool.and_eq_false_iff, decide_eq_false_iff_not]
    exact .inr (by omega)
  have gen : ∀ (p z : Entry → Bool) (l : List Entry), (∀ e ∈ l, p e = false → expiredE now e = true) → (∀ e ∈ l, z e = true → expiredE now e = true) →
      answersE cfg ((l.filter p).map fun e => if z e then { e with ttl := 0 } else e) key t = answersE cfg l key t := by
    intro p z l
    induction l with
    | nil => intro _ _; rfl
    | cons a l ih =>
      intro hp hz
      have ih := ih (fun e he => hp e (by simp [he])) (fun e he => hz e (by simp [he]))
      have hnil : ∀ b : Entry, matching cfg key t b = false ∨ b.ttl = 0 → answersE cfg [b] key t = [] := by
        intro b hb
        unfold answersE
        rw [List.filter_cons]
        rcases hb with h | h
        · rw [if_neg (by simp [h])]; rfl
        · cases hm : matching cfg key t b with
          | true => rw [if_pos rfl, List.filter_cons, if_neg (by simp [h])]; rfl
          | false => rfl
      rw [answersE_cons a l]
      cases hpa : p a with
      | false =>
        rw [List.filter_cons_of_neg (by simp [hpa]), ih, hnil a (.inl (hexp a (hp a (by simp) hpa)))]; rfl
      | true =>
        rw [List.filter_cons_of_pos hpa, List.map_cons, answersE_cons, ih]
        cases hza : z a with
        | false => simp only [Bool.false_eq_true, if_false]
        | true =>
          rw [hnil a (.inl (hexp a (hz a (by simp) hza)))]
          simp only [if_true]
          rw [hnil _ (.inr rfl)]
  cases h with
  | nothing => rfl
  | done h =>
    cases h with
    | keep _ h => exact absurd rfl (h now)
    | sweep =>
      have := gen (fun e => !expiredE now e) (fun _ => false) es (fun e _ h => by simpa using h) (by simp)
      simp only [Bool.false_eq_true, if_false, List.map_id'] at this
      exact this
  | sweep _ p z hp hz => exact gen p z es hp hz

/-! ### the sweep beside the other threads -/

theorem close_good (g : Good cfg st es) (b : Bool) : Good cfg (close cfg (st, b)) es := by
  cases b with
  | false => exact g
  | true =>
    obtain ⟨⟨X, F, c⟩, hf, hq⟩ := g
    refine ⟨⟨X, F, c.cend _⟩, ⟨Nat.le_refl _, ?_⟩, hq⟩
    show endOf cfg st.ht + 32 * st.ht.used + _ ≤ _
    have := hf.1
    have := hf.2
    omega

theorem rest_ok (hc : CfgOk cfg) (g : Good cfg st es) (now : Int) {fuel : Nat} (m : Nat) (got : Bool) (hf : st.ht.used < fuel) :
    ∃ st' es', (sweepLoop cfg now fuel m st got).map (close cfg) = some st' ∧ Good cfg st' es' ∧ KillE cfg es (.sweep now) es' := by
  by_cases hm : m ≤ st.ht.used
  · obtain ⟨a1, got', a2⟩ := sweepLoopW_ok hc now fuel m got g hm hf
    have a3 := along_take a1 (sweepLoopW cfg now fuel m st).length
    rw [List.take_length] at a3
    obtain ⟨es', g', p, z, hp, hz, rfl⟩ := a3
    rw [a2]
    exact ⟨_, _, rfl, close_good g' got', .sweep now p z hp hz⟩
  · obtain ⟨k, rfl⟩ : ∃ k, m = k + 1 := ⟨m - 1, by omega⟩
    rw [sweepLoop, if_neg (by omega)]
    exact ⟨_, es, rfl, close_good g got, .nothing _⟩

theorem race_ok (hc : CfgOk cfg) (g : Good cfg st es) (hp : cfg.parallel = false) {key data : List Byte} {ttl k i n : Nat} {now s : Int}
    (wo : Wf (.add key data ttl now)) (hk : k = ((plan cfg st (.add key data ttl now)).take i).flatten.length)
    (hs : s < now + ttl) :
    ∃ st1 es1 st2 es2, step cfg st (.add key data ttl now) = some st1 ∧ Good cfg st1 es1 ∧ race cfg st (.add key data ttl now) k n s = some st2 ∧
      Good cfg st2 es2 ∧ KillE cfg es1 (.sweep s) es2 := by
  obtain ⟨st1, es1, e1, g1, k1⟩ := step_good hc g wo
  obtain ⟨es', g', k'⟩ := kill_good hc g wo hk
  have hfu : st1.ht.used < st1.fuel := by unfold St.fuel; omega
  unfold race
  rw [e1]
  dsimp only
  by_cases ht : test (killed cfg st (.add key data ttl now) k) s n = true
  · rw [if_pos ht]
    have hold : ∃ e ∈ es, e.idx = n ∧ expiredE s e = true := by
      obtain ⟨⟨X, F, c⟩, _, hq⟩ := g'
      simp only [test, decide_eq_true_eq] at ht
      obtain ⟨e, he, hn⟩ : ∃ e ∈ es', e.idx = n := by
        refine Decidable.byContradiction fun h => ?_
        have := hq n (fun e he x => h ⟨e, he, x⟩)
        omega
      have l := c.live e he
      have hex : expiredE s e = true := by
        rw [← hn, l.ttl, l.added] at ht
        simp only [expiredE, decide_eq_true_eq]; exact ht
      cases k' with
      | nothing => exact ⟨e, he, hn, hex⟩
      | share _ _ _ _ hp' J => rw [hp] at hp'; simp at hp'
      | done h =>
        cases h with
        | keep => exact ⟨e, he, hn, hex⟩
        | add i key data ttl now _ _ =>
          rcases List.mem_cons.1 he with rfl | he
          · simp only [expiredE, addTTL, hp, Bool.false_eq_true, if_false, decide_eq_true_eq] at hex
            omega
          · simp only [addOld, hp, Bool.false_eq_true, if_false] at he
            exact ⟨e, he, hn, hex⟩
    obtain ⟨e, he, hn, hex⟩ := hold
    have he1 : e ∈ es1 := killE_stays k1 he (.inl hp) (by simp)
    obtain ⟨⟨X, F, c⟩, _, _⟩ := id g1
    have l := c.live e he1
    have hlt : n < st1.ht.used := by rw [← hn]; exact c.idx_lt he1
    have hx : (st1.ht.nodes n).ttl > 0 ∧ s - (st1.ht.nodes n).added ≥ (st1.ht.nodes n).ttl := by
      rw [← hn, l.ttl, l.added]; simpa [expiredE] using hex
    obtain ⟨st2, es2, e2, g2, k2⟩ := rest_ok hc g1 s (fuel := st1.fuel) (n + 1) false hfu
    refine ⟨st1, es1, st2, es2, rfl, g1, ?_, g2, k2⟩
    rw [← e2, sweepLoop, if_pos hlt, if_pos hx]
    dsimp only
    rw [show St.fuel { ht := st1.ht.set n { st1.ht.nodes n with ttl := 0 }, cend := st1.cend, mem := poke st1.mem ((st1.ht.set n { st1.ht.nodes n with ttl := 0 }).nodes n).offset [0xFD] } = st1.fuel from rfl]
    cases remove cfg.nslots (st1.ht.set n { st1.ht.nodes n with ttl := 0 }) n st1.fuel <;> rfl
  · rw [if_neg ht]
    obtain ⟨st2, es2, e2, g2, k2⟩ := rest_ok hc g1 s (fuel := st1.fuel) n false hfu
    exact ⟨st1, es1, st2, es2, rfl, g1, e2, g2, k2⟩

/-! ### lives -/

/-- The kills of a life happen between two steps. -/
def Between (s : Cfg × St) : List Ev → Prop
  | [] => True
  | e :: evs =>
    (∀ o k, e = .kill o k → ∃ i, k = ((plan s.1 s.2 o).take i).flatten.length) ∧
      ∀ s', event s e = some s' → Between s' evs

theorem area_flags {i p : Bool} (hc : CfgOk cfg) : CfgOk { cfg with ignoreTTL := i, parallel := p } := ⟨hc.slots, hc.room⟩

theorem event_ok (hc : CfgOk cfg) (g : Good cfg st es) {e : Ev} (wf : ∀ o, e = .op o ∨ (∃ k, e = .kill o k) → Wf o)
    (hb : ∀ o k, e = .kill o k → ∃ i, k = ((plan cfg st o).take i).flatten.length) :
    ∃ cfg' st' es', event (cfg, st) e = some (cfg', st') ∧ CfgOk cfg' ∧ Good cfg' st' es' ∧ (cfg'.hdr = cfg.hdr) ∧
      ((∃ o, (e = .op o ∨ ∃ k, e = .kill o k) ∧ cfg' = cfg ∧ KillE cfg es o es') ∨
        (∃ i p, e = .restart i p ∧ cfg' = { cfg with ignoreTTL := i, parallel := p } ∧ es' = es)) := by
  cases e with
  | op o =>
    obtain ⟨st', es', h1, h2, h3⟩ := step_good hc g (wf o (.inl rfl))
    exact ⟨cfg, st', es', by simp only [event]; rw [h1]; rfl, hc, h2, rfl, .inl ⟨o, .inl rfl, rfl, h3⟩⟩
  | kill o k =>
    obtain ⟨i, hi⟩ := hb o k rfl
    obtain ⟨es', h2, h3⟩ := kill_good hc g (wf o (.inr ⟨k, rfl⟩)) hi
    exact ⟨cfg, _, es', rfl, hc, h2, rfl, .inl ⟨o, .inr ⟨k, rfl⟩, rfl, h3⟩⟩
  | restart i p => exact ⟨_, st, es, rfl, area_flags hc, g.flags i p, rfl, .inr ⟨i, p, rfl, rfl, rfl⟩⟩

theorem mem_ops {o : Op} {evs : List Ev} : o ∈ Spec.ops evs ↔ Ev.op o ∈ evs ∨ ∃ k, Ev.kill o k ∈ evs := by
  unfold Spec.ops
  rw [List.mem_filterMap]
  constructor
  · rintro ⟨e, he, h⟩
    cases e with
    | op o' => simp only [Option.some.injEq] at h; subst h; exact .inl he
    | kill o' k => simp only [Option.some.injEq] at h; subst h; exact .inr ⟨k, he⟩
    | restart => simp at h
  · rintro (h | ⟨k, h⟩)
    · exact ⟨_, h, rfl⟩
    · exact ⟨_, h, rfl⟩

/-- A life whose kills are between two steps. -/
theorem life_ok (a s : Prop) (os : List Op) : ∀ (evs : List Ev) {cfg : Cfg} {st : St} {es : List Entry}, CfgOk cfg → Good cfg st es →
    (∀ o ∈ Spec.ops evs, Wf o ∧ o ∈ os) → Between (cfg, st) evs →
    (a → cfg.ignoreTTL = false ∨ cfg.parallel = false) → (a → Spec.Apart evs) → (s → cfg.parallel = false) → (s → Spec.Single evs) →
    (∀ e ∈ es, OriginK a s os e) →
    ∃ cfg' st' es', life (cfg, st) evs = some (cfg', st') ∧ CfgOk cfg' ∧ Good cfg' st' es' ∧ (∀ e ∈ es', OriginK a s os e) ∧
      (s → cfg'.parallel = false) ∧ ∀ e ∈ es, (s ∨ ∀ data ttl now, Op.add e.key data ttl now ∉ Spec.ops evs) →
        (∀ now, Op.sweep now ∈ Spec.ops evs → expiredE now e = false) → e ∈ es' := by
  intro evs
  induction evs with
  | nil => intro cfg st es hc g _ _ _ _ hs _ ho; exact ⟨cfg, st, es, rfl, hc, g, ho, hs, fun e he _ _ => he⟩
  | cons ev evs ih =>
    intro cfg st es hc g wf hb ha hap hs hsi ho
    have hsub : ∀ o ∈ Spec.ops evs, o ∈ Spec.ops (ev :: evs) := by
      intro o h
      rw [mem_ops] at h ⊢
      rcases h with h | ⟨k, h⟩
      · exact .inl (by simp [h])
      · exact .inr ⟨k, by simp [h]⟩
    have hev : ∀ o, ev = .op o ∨ (∃ k, ev = .kill o k) → o ∈ Spec.ops (ev :: evs) := by
      intro o h
      rw [mem_ops]
      rcases h with rfl | ⟨k, rfl⟩
      · exact .inl (by simp)
      · exact .inr ⟨k, by simp⟩
    obtain ⟨cfg1, st1, es1, e1, hc1, g1, _, h1⟩ := event_ok hc g (e := ev) (fun o h => (wf o (hev o h)).1) hb.1
    have hb1 := hb.2 _ e1
    have hap1 : a → Spec.Apart evs := fun x i p h => hap x i p (by simp [h])
    have hsi1 : s → Spec.Single evs := fun x i p h => hsi x i p (by simp [h])
    have key : (a → cfg1.ignoreTTL = false ∨ cfg1.parallel = false) ∧ (s → cfg1.parallel = false) ∧ (∀ e ∈ es1, OriginK a s os e) ∧
        ∀ e ∈ es, (s ∨ ∀ data ttl now, Op.add e.key data ttl now ∉ Spec.ops (ev :: evs)) →
        (∀ now, Op.sweep now ∈ Spec.ops (ev :: evs) → expiredE now e = false) → e ∈ es1 := by
      rcases h1 with ⟨o, hev', rfl, hk⟩ | ⟨i, p, rfl, rfl, rfl⟩
      · refine ⟨ha, hs, killE_origin hk (wf o (hev o hev')).2 ha hs ho, fun e he h2 h3 => killE_stays hk he ?_ (fun now hn => h3 now (hn ▸ hev o hev'))⟩
        rcases h2 with h2 | h2
        · exact .inl (hs h2)
        · exact .inr (fun d t n hn => h2 d t n (hn ▸ hev o hev'))
      · exact ⟨fun x => hap x i p (by simp), fun x => hsi x i p (by simp), ho, fun e he _ _ => he⟩
    obtain ⟨cfg2, st2, es2, e2, hc2, g2, ho2, hs2, hst2⟩ := ih hc1 g1 (fun o h => wf o (hsub o h)) hb1 key.1 hap1 key.2.1 hsi1 key.2.2.1
    refine ⟨cfg2, st2, es2, by rw [life, e1]; exact e2, hc2, g2, ho2, hs2, fun e he h2 h3 => ?_⟩
    refine hst2 e (key.2.2.2 e he h2 h3) ?_ (fun now h => h3 now (hsub _ h))
    rcases h2 with h2 | h2
    · exact .inl h2
    · exact .inr (fun d t n h => h2 d t n (hsub _ h))

theorem life_append (evs evs' : List Ev) (s : Cfg × St) : life s (evs ++ evs') = (life s evs).bind fun s => life s evs' := by
  induction evs generalizing s with
  | nil => rfl
  | cons e es ih =>
    simp only [List.cons_append, life]
    cases event s e with
    | none => rfl
    | some s => exact ih s

end Verif.CacheFile
