import Verif.Lemmas.DnsCacheReply
/-! Lemmas on where the cached data come from. -/

namespace Verif.DnsCache
open Message Name Parser Generator Spec
open Verif.Cache Verif.Cache.Spec

/-! ### every response leaves the store in order -/

theorem u16At_lt {b : List Byte} {i n : Nat} (h : u16At b i = some n) : n < 65536 := by
  unfold u16At at h
  cases h1 : b[i]? with
  | none => rw [h1] at h; simp at h
  | some x =>
    cases h2 : b[i + 1]? with
    | none => rw [h1, h2] at h; simp at h
    | some y =>
      rw [h1, h2] at h
      simp only [Option.some.injEq] at h
      have := x.toNat_lt; have := y.toNat_lt; omega

theorem getTTL_lt {b : List Byte} {p n : Nat} (h : getTTL b p = some n) : n < 4294967296 := by
  unfold getTTL at h
  cases hs : skipAt b p with
  | none => rw [hs] at h; simp at h
  | some k =>
    rw [hs] at h
    dsimp only at h
    unfold u32At at h
    cases h1 : u16At b (p + k + 4) with
    | none => rw [h1] at h; simp at h
    | some x =>
      cases h2 : u16At b (p + k + 4 + 2) with
      | none => rw [h1, h2] at h; simp at h
      | some y =>
        rw [h1, h2] at h
        simp only [Option.some.injEq] at h
        have := u16At_lt h1; have := u16At_lt h2; omega

theorem effective_lt {c : Option (StringChunk.Chunk CacheTtl.Rule)} {fnm : List Byte → List Byte → Bool} {q behind item : List Byte}
    {ttl : Nat} (h : ttl < 4294967296) : CacheTtl.effective c fnm q behind item ttl < 4294967296 := by
  unfold CacheTtl.effective CacheTtl.lifetime
  split
  · exact h
  · split
    · omega
    · split
      · exact h
      · omega

theorem recordOp_wf {s : Settings} {b : List Byte} {len fuel : Nat} {question behind : List Byte} {now : Int} {it : Itr}
    {ops : List Op} (h : recordOp s b len fuel question behind now it = some ops) : ∀ o ∈ ops, Wf o := by
  unfold recordOp at h
  split at h
  · split at h
    · simp at h
    · rename_i p hp
      split at h
      · simp at h
      · cases h; simp
      · rename_i key d hi
        split at h
        · simp at h
        · rename_i ttl ht
          cases h
          intro o ho
          simp only [List.mem_singleton] at ho
          subst ho
          refine ⟨?_, effective_lt (getTTL_lt ht)⟩
          unfold itemOf at hi
          split at hi
          · simp at hi
          · simp at hi
          · simp at hi
          · rename_i k buf hb
            dsimp only at hi
            split at hi
            · simp at hi
            · split at hi
              · simp at hi
              · split at hi
                · simp at hi
                · simp at hi
                · split at hi
                  · simp at hi
                  · simp only [Option.some.injEq, Prod.mk.injEq] at hi
                    rw [← hi.1]
                    exact keyOf_no_zero (cstr_no_zero _)
  · cases h; simp

theorem recordOps_wf {s : Settings} {b : List Byte} {len fuel : Nat} {question behind : List Byte} {clock : Nat → Int} {c : Counts} :
    ∀ (n : Nat) {it : Itr} {ops : List Op}, recordOps s b len fuel question behind clock c n it = some ops → ∀ o ∈ ops, Wf o := by
  intro n
  induction n with
  | zero => intro it ops h; simp [recordOps] at h
  | succ n ih =>
    intro it ops h
    unfold recordOps at h
    cases hn : next b len c it with
    | none => rw [hn] at h; simp at h
    | some x =>
      obtain ⟨it', p⟩ := x
      cases p with
      | none => rw [hn] at h; simp at h; subst h; simp
      | some p =>
        rw [hn] at h
        dsimp only at h
        cases h1 : recordOp s b len fuel question behind (clock it'.num) it' with
        | none => rw [h1] at h; simp at h
        | some o =>
          cases h2 : recordOps s b len fuel question behind clock c n it' with
          | none => rw [h1, h2] at h; simp at h
          | some os =>
            rw [h1, h2] at h
            simp only [Option.some.injEq] at h
            subst h
            intro x hx
            rcases List.mem_append.1 hx with hx | hx
            · exact recordOp_wf h1 x hx
            · exact ih h2 x hx

theorem event_wf {s : Settings} {e : Event} {ops : List Op} (h : e.ops s = some ops) : ∀ o ∈ ops, Wf o := by
  cases e with
  | sweep now => simp [Event.ops] at h; subst h; simp [Wf]
  | response b len fuel question behind clock first =>
    simp only [Event.ops, addOps] at h
    split at h
    · cases h; simp
    · split at h
      · cases h; simp
      · split at h
        · simp at h
        · exact recordOps_wf _ h

theorem history_mem {s : Settings} : ∀ (es : List Event) {ops : List Op}, history s es = some ops →
    ∀ o ∈ ops, ∃ e ∈ es, ∃ os, e.ops s = some os ∧ o ∈ os := by
  intro es
  induction es with
  | nil => intro ops h; simp [history] at h; subst h; simp
  | cons e es ih =>
    intro ops h
    unfold history at h
    cases h1 : e.ops s with
    | none => rw [h1] at h; simp at h
    | some o =>
      cases h2 : history s es with
      | none => rw [h1, h2] at h; simp at h
      | some os =>
        rw [h1, h2] at h
        simp only [Option.some.injEq] at h
        subst h
        intro x hx
        rcases List.mem_append.1 hx with hx | hx
        · exact ⟨e, by simp, o, h1, hx⟩
        · obtain ⟨e', h3, h4⟩ := ih h2 x hx
          exact ⟨e', by simp [h3], h4⟩

theorem history_wf {s : Settings} {es : List Event} {ops : List Op} (h : history s es = some ops) : ∀ o ∈ ops, Wf o := by
  intro o ho
  obtain ⟨e, _, os, h1, h2⟩ := history_mem es h o ho
  exact event_wf h1 o h2

/-! ### lifetimes are 32-bit numbers -/

theorem leftE_lt (now : Int) (e : Entry) : leftE now e < 4294967296 := by unfold leftE; omega

theorem minLeft_lt {cfg : Cfg} {es : List Entry} {key : List Byte} {ttl : Nat} {now : Int} (h : ttl < 4294967296) :
    minLeft cfg es key ttl now < 4294967296 := by
  have := (minLeft_le (cfg := cfg) es key ttl now).1; omega

theorem stepE_small {cfg : Cfg} {es es' : List Entry} {o : Op} (h : StepE cfg es o es') (wf : Wf o)
    (hes : ∀ e ∈ es, e.ttl < 4294967296) : ∀ e ∈ es', e.ttl < 4294967296 := by
  cases h with
  | keep => exact hes
  | sweep now => intro e he; exact hes e (List.mem_filter.1 he).1
  | add i key data ttl now ht hd =>
    intro e he
    have hw : ttl < 4294967296 := wf.2
    rcases List.mem_cons.1 he with rfl | he
    · show addTTL cfg es key ttl now < _
      unfold addTTL
      split
      · exact minLeft_lt hw
      · exact hw
    · unfold addOld at he
      split at he
      · simp only [List.mem_map] at he
        obtain ⟨d, hd', rfl⟩ := he
        unfold Entry.touch
        split
        · exact minLeft_lt hw
        · exact hes d hd'
      · exact hes e he

theorem runE_small {cfg : Cfg} {es es' : List Entry} {os : List Op} (h : RunE cfg es os es') (wf : ∀ o ∈ os, Wf o)
    (hes : ∀ e ∈ es, e.ttl < 4294967296) : ∀ e ∈ es', e.ttl < 4294967296 := by
  induction h with
  | nil => exact hes
  | cons s _ ih => exact ih (fun o h => wf o (by simp [h])) (stepE_small s (wf _ (by simp)) hes)

theorem after_entries {cfg : Cfg} {ops : List Op} {st : St} (ha : Area cfg) (wf : ∀ o ∈ ops, Wf o) (h : After cfg ops st) :
    ∃ es, Inv cfg st es ∧ (∀ e ∈ es, Origin cfg ops e) ∧ ∀ e ∈ es, e.ttl < 4294967296 := by
  obtain ⟨st0, h⟩ := h
  obtain ⟨st', es, e, inv, r, b⟩ := run_ok (cfgOk_of_area ha) ops (init_ok (cfgOk_of_area ha) st0) wf
  rw [h] at e
  cases e
  exact ⟨es, inv, runE_origin r (fun _ h => h) (by simp), runE_small r wf (by simp)⟩

/-! ### the alias found -/

/-- The lifetime shown. -/
def shown (cfg : Cfg) (now : Int) (e : Entry) : Nat := if cfg.ignoreTTL then e.ttl else leftE now e

theorem nodeData_eq {cfg : Cfg} {st : St} {e : Entry} (l : Live cfg st e) (now : Int) :
    nodeData cfg st e.key.length now e.idx = (e.data, shown cfg now e) := by
  unfold nodeData shown
  rw [l.ttl, l.remaining, l.used]
  congr 1
  have hb := l.bytes
  have hlen : e.item.length = (e.key.length + 1) + e.data.length := by simp [Entry.item]; omega
  rw [hlen, peek_add] at hb
  have hitem : e.item = (e.key ++ [0]) ++ e.data := by simp [Entry.item]
  rw [hitem] at hb
  have := (List.append_inj hb (by simp [peek_length])).2
  rw [hlen]
  rw [show e.key.length + 1 + e.data.length + 1 - (1 + e.key.length + 1) = e.data.length from by omega,
    show (st.ht.nodes e.idx).offset + 1 + e.key.length + 1 = (st.ht.nodes e.idx).offset + 1 + (e.key.length + 1) from by omega]
  exact this

theorem cnameFrom_ok {cfg : Cfg} {st : St} {es : List Entry} (hc : CfgOk cfg) (inv : Inv cfg st es) {name : List Byte}
    (hn : ∀ c ∈ name, c ≠ 0) (hl : (keyOf name 5 1).length < 264) (now : Int) :
    cnameFrom cfg st name now = some ((es.find? (matching cfg (keyOf name 5 1) now)).map fun e => (cstr e.data, shown cfg now e)) := by
  obtain ⟨X, F, c, _⟩ := inv
  have h0 : (0 : Byte) ∉ keyOf name 5 1 := keyOf_no_zero hn
  have hlen := c.chain_length (slotOf cfg (keyOf name 5 1))
  unfold cnameFrom
  dsimp only
  rw [if_neg (by omega), find_seg _ (c.slots _ (slotOf_lt hc _)) (fun j hj => c.chain_lt hj) (by unfold St.fuel; omega)]
  have hf : (chain cfg es (slotOf cfg (keyOf name 5 1))).find? (hit cfg st (keyOf name 5 1 ++ [0]) now) =
      (es.find? (matching cfg (keyOf name 5 1) now)).map Entry.idx := by
    rw [← List.head?_filter, hits_key c h0, List.head?_map, List.head?_filter]
  rw [hf]
  cases he : es.find? (matching cfg (keyOf name 5 1) now) with
  | none => rfl
  | some e =>
    have hm := List.find?_some he
    have hk : e.key = keyOf name 5 1 := by
      simp only [matching, Bool.and_eq_true, beq_iff_eq] at hm; exact hm.1
    have l := c.live e (List.mem_of_find?_eq_some he)
    simp only [Option.map_some]
    rw [← hk, nodeData_eq l]

end Verif.DnsCache
