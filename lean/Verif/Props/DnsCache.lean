import Verif.Lemmas.DnsCacheStore
/-! C65: what is answered from the cache. -/

namespace Verif.DnsCache
open Message Name Parser Generator Spec
open Verif.Cache Verif.Cache.Spec

variable {Addr : Type}

/-- A message that arrives is a well-formed response; the bytes behind it in the buffer are arbitrary. -/
def Event.WellFormed : Event → Prop
  | .response b len _ _ _ _ _ => ∃ m fs post, Response m fs ∧ b = m.bytes ++ post ∧ len = m.bytes.length
  | .sweep _ => True

/-- The record was in an earlier response that was taken, under the same name, with the same type and data;
and with TTLs honoured, its lifetime in the cache is not over and the TTL shown is at most what is left of it. -/
def Said (s : Settings) (evs : List Event) (now : Int) (f : Fact) : Prop :=
  ∃ (m : Msg) (fs : List Fact) (f0 : Fact) (post : List Byte) (fuel : Nat) (question behind : List Byte) (clock : Nat → Int)
    (first : Bool) (j L : Nat),
    Event.response (m.bytes ++ post) m.bytes.length fuel question behind clock first ∈ evs ∧
    (first = true ∨ s.cfg.parallel = true) ∧ Response m fs ∧ f0 ∈ fs ∧
    f0.owner = f.owner ∧ f0.type = f.type ∧ f0.value = f.value ∧
    L = CacheTtl.effective s.rules s.fnm question behind (keyOf (text f0.owner) f0.type 1) f0.ttl ∧
    (s.cfg.ignoreTTL = false → now < clock j + L ∧ (f.ttl : Int) ≤ clock j + L - now)

/-- An upper bound of what the records need in the buffer. -/
def need (fs : List Fact) : Nat := (fs.map fun f => (wire f.owner).length + 12 + f.value.wire.length).sum

theorem rrBytes_le_need (fs : List Fact) : (rrBytes (fs.map written)).length ≤ need fs := by
  induction fs with
  | nil => simp [rrBytes, need]
  | cons f fs ih =>
    have h1 : 1 ≤ (wire f.owner).length := by cases f.owner <;> simp [wire]
    simp only [rrBytes, need, List.map_cons, List.flatten_cons, List.length_append, List.sum_cons, rr_bytes_length] at ih ⊢
    have : (written f).name.length ≤ (wire f.owner).length + 2 := by
      unfold written; dsimp only; split
      · simp [wire]; omega
      · omega
    have h2 : (written f).rdata = f.value.wire := rfl
    rw [h2]
    omega

theorem says_reads {b : List Byte} {p : Nat} {rs : List RR} {fs : List Fact} (h : Says b p rs fs) :
    ∀ f ∈ fs, Cached f.type ∧ ∃ p r, Reads b p r f := by
  induction h with
  | nil => simp
  | skip _ _ ih => exact ih
  | cons h hc _ ih =>
    intro f hf
    rcases List.mem_cons.1 hf with rfl | hf
    · exact ⟨by rw [← h.type]; exact hc, _, _, h⟩
    · exact ih f hf

/-- Every entry of the cache was said by a response. -/
theorem entry_said {s : Settings} {evs : List Event} {ops : List Op} (hev : ∀ e ∈ evs, e.WellFormed)
    (hh : history s evs = some ops) {e : Entry} (ho : Origin s.cfg ops e) {now : Int} (hf : freshE s.cfg now e = true) :
    ∃ f0 : Fact, e.key = factKey f0 ∧ e.data = form f0.value ∧ Cached f0.type ∧ Small f0 ∧ (∃ b p r, Reads b p r f0) ∧
      Said s evs now ⟨f0.owner, f0.type, shown s.cfg now e, f0.value⟩ := by
  obtain ⟨ttl, t, h1, h2, h3, h4⟩ := ho
  obtain ⟨ev, hev1, os, h5, h6⟩ := history_mem evs hh _ h1
  cases ev with
  | sweep n => simp [Event.ops] at h5; subst h5; simp at h6
  | response b len fuel question behind clock first =>
    obtain ⟨m, fs, post, hm, rfl, rfl⟩ := hev _ hev1
    obtain ⟨k1, k2⟩ := addOps_eq hm h5
    have hfp : first = true ∨ s.cfg.parallel = true := by
      cases hf1 : first with
      | true => exact .inl rfl
      | false =>
        cases hp : s.cfg.parallel with
        | true => exact .inr rfl
        | false => rw [k1 ⟨hf1, hp⟩] at h6; simp at h6
    obtain ⟨f0, g1, g2, j, g3⟩ := (k2 hfp).1 _ h6
    simp only [opOf, Op.add.injEq] at g3
    obtain ⟨g3, g4, rfl, rfl⟩ := g3
    obtain ⟨hc, p, r, hr⟩ := says_reads hm.2.2 f0 g1
    refine ⟨f0, g3, g4, hc, g2, ⟨_, p, r, hr⟩, m, fs, f0, post, fuel, question, behind, clock, first, j, _, hev1, hfp, hm, g1,
      rfl, rfl, rfl, rfl, fun hi => ?_⟩
    have h3 := h3 hi
    have hf' : now - e.added < e.ttl := by simpa [freshE, hi] using hf
    have hle := leftE_le hf'
    have hs : shown s.cfg now e = leftE now e := by simp [shown, hi]
    dsimp only
    rw [hs]
    unfold factKey at h3
    omega

theorem key_length {ls : List (List Byte)} {t : Nat} (hls : RfcName ls) (ht : t < 256) : (keyOf (text ls) t 1).length < 264 := by
  have h1 := hls.2
  have h2 := hex_length_small (n := t) ht
  have h3 : (hexText 4 1).length = 1 := by decide
  unfold keyOf
  simp only [List.length_append, List.length_cons]
  omega

theorem factKey_eq {ls : List (List Byte)} {t : Nat} {f0 : Fact} (hls : ValidName ls) (ht : t < 65536) (hc : Cached f0.type)
    (ho : ValidName f0.owner) (h : keyOf (text ls) t 1 = factKey f0) : f0.owner = ls ∧ f0.type = t := by
  obtain ⟨h1, h2, _⟩ := keyOf_inj ht (by unfold Cached at hc; omega) (by omega) (by omega) h
  exact ⟨(text_inj hls ho h1).symm, h2.symm⟩

theorem value_writable {f0 : Fact} {t : Nat} {b : List Byte} {p : Nat} {r : RR} (hr : Reads b p r f0) (hs : Small f0)
    (h1 : f0.type = t) (ht : t = 1 ∨ t = 15 ∨ t = 16 ∨ t = 28 ∨ t = 65) : Writable t f0.value := by
  have hv := hr.value
  unfold Small at hs
  subst h1
  cases hf : f0.value with
  | raw d => rw [hf] at hv hs; simp only [form] at hs; exact ⟨by omega, hv.2.2, by omega⟩
  | name ls => rw [hf] at hv; have := hv.1; omega
  | mx pref ls => rw [hf] at hv; exact ⟨hv.1, hv.2.1, hv.2.2.1⟩

section
variable {s : Settings} {evs : List Event} {ops : List Op} {st : St}

/-- An alias found in the cache was said by a response. -/
theorem alias_said (ha : Area s.cfg) (hev : ∀ e ∈ evs, e.WellFormed) (hh : history s evs = some ops) (hst : After s.cfg ops st)
    {now : Int} (ls : List (List Byte)) (x : List Byte × Nat) (hls : RfcName ls)
    (h : cnameFrom s.cfg st (text ls) now = some (some x)) :
    ∃ target, RfcName target ∧ x.1 = text target ∧ x.2 < 4294967296 ∧ (ValidName ls ∧ Said s evs now ⟨ls, 5, x.2, .name target⟩) := by
  obtain ⟨es, inv, hor, hsm⟩ := after_entries ha (history_wf hh) hst
  rw [cnameFrom_ok (cfgOk_of_area ha) inv (text_no_zero hls.1) (key_length hls (by omega))] at h
  cases he : es.find? (matching s.cfg (keyOf (text ls) 5 1) now) with
  | none => rw [he] at h; simp at h
  | some e =>
    rw [he] at h
    simp only [Option.map_some, Option.some.injEq] at h
    subst h
    have hm := List.find?_some he
    have hmem := List.mem_of_find?_eq_some he
    simp only [matching, Bool.and_eq_true, beq_iff_eq] at hm
    obtain ⟨f0, k1, k2, k3, k4, ⟨b, p, r, k5⟩, k6⟩ := entry_said hev hh (hor e hmem) hm.2
    obtain ⟨h1, h2⟩ := factKey_eq (t := 5) hls.1 (by omega) k3 k5.owner.1 (by rw [← k1, hm.1])
    have hv := k5.value
    have hlt : shown s.cfg now e < 4294967296 := by
      unfold shown; split
      · exact hsm e hmem
      · exact leftE_lt _ _
    cases hf : f0.value with
    | raw d => rw [hf] at hv; have := hv.1; omega
    | mx pref l => rw [hf] at hv; have := hv.1; omega
    | name target =>
      rw [hf] at hv
      refine ⟨target, hv.2.1, ?_, hlt, hls.1, ?_⟩
      · rw [k2, hf]; exact cstr_text hv.2.1.1 []
      · rw [h1, h2, hf] at k6; exact k6

theorem exists_facts {P : Fact → Prop} {ls : List (List Byte)} {t : Nat} (l : List (List Byte × Nat))
    (h : ∀ x ∈ l, ∃ v, x.1 = form v ∧ P ⟨ls, t, x.2, v⟩) :
    ∃ fs : List Fact, l = fs.map (fun f => (form f.value, f.ttl)) ∧ ∀ f ∈ fs, f.owner = ls ∧ f.type = t ∧ P f := by
  induction l with
  | nil => exact ⟨[], rfl, by simp⟩
  | cons x l ih =>
    obtain ⟨fs, h1, h2⟩ := ih (fun y hy => h y (by simp [hy]))
    obtain ⟨v, h3, h4⟩ := h x (by simp)
    refine ⟨⟨ls, t, x.2, v⟩ :: fs, by simp [← h1, ← h3], ?_⟩
    intro f hf
    rcases List.mem_cons.1 hf with rfl | hf
    · exact ⟨rfl, rfl, h4⟩
    · exact h2 f hf

/-- The records found in the cache were said by responses. -/
theorem records_said (ha : Area s.cfg) (hev : ∀ e ∈ evs, e.WellFormed) (hh : history s evs = some ops) (hst : After s.cfg ops st)
    {now : Int} {ls : List (List Byte)} {t : Nat} {l : List (List Byte × Nat)} (hls : RfcName ls)
    (ht : t = 1 ∨ t = 15 ∨ t = 16 ∨ t = 28 ∨ t = 65) (h : answers s.cfg st (keyOf (text ls) t 1) now = some l) :
    ∃ fs : List Fact, l = fs.map (fun f => (form f.value, f.ttl)) ∧
      ∀ f ∈ fs, f.owner = ls ∧ f.type = t ∧ f.ttl < 4294967296 ∧ Writable t f.value ∧ Said s evs now f := by
  obtain ⟨es, inv, hor, hsm⟩ := after_entries ha (history_wf hh) hst
  rw [answers_ok (cfgOk_of_area ha) inv (keyOf_no_zero (text_no_zero hls.1))] at h
  cases h
  apply exists_facts (P := fun f => f.ttl < 4294967296 ∧ Writable t f.value ∧ Said s evs now f)
  rintro ⟨d, r⟩ hx
  obtain ⟨e, h1, h2, rfl, h4, h5, rfl⟩ := mem_answersE.1 hx
  obtain ⟨f0, k1, k2, k3, k4, ⟨b, p, rr, k5⟩, k6⟩ := entry_said hev hh (hor e h1) h4
  obtain ⟨g1, g2⟩ := factKey_eq (t := t) hls.1 (by omega) k3 k5.owner.1 (by rw [← k1, h2])
  have hlt : shown s.cfg now e < 4294967296 := by
    unfold shown; split
    · exact hsm e h1
    · exact leftE_lt _ _
  have hw := value_writable (f0 := f0) k5 k4 g2 ht
  refine ⟨f0.value, k2, hlt, hw, ?_⟩
  rw [g1, g2] at k6; exact k6

/-- C65, the full claim: after any history of well-formed responses, the answer to any query of a cached type,
if there is one, consists of aliases and records of earlier responses that are not over. -/
def OnlySaid : Prop := ∀ (s : Settings) (evs : List Event) (ops : List Op) (st : St) (behind : List Byte) (fuel : Nat) (now : Int)
  (m : Verif.Msg.Ctx Unit) (q : Msg) (x : Question) (ls : List (List Byte)),
  Area s.cfg → (∀ e ∈ evs, e.WellFormed) → history s evs = some ops → After s.cfg ops st → q.Valid → q.qs = [x] → x.klass = 1 →
  x.name = wire ls → RfcName ls → q.an = [] → Cached x.type → m.entity = q.bytes → q.bytes.length ≤ behind.length → behind.length < 16384 →
  (getHostName (Verif.Msg.memAt (q.bytes ++ behind)) q.bytes.length 12 (some 254) fuel).out ≠ .noFuel →
  ∃ code out, fetch s.cfg st behind fuel now m = some (code, out) ∧ ((code ≠ 0 ∧ out = []) ∨
    ∃ fs r, code = 0 ∧ Answers x.type ls fs ∧ (∀ f ∈ fs, Said s evs now f) ∧ ReplyWith q m.edns fs r ∧
      out = [Verif.Msg.sendBack { m with entity := r.bytes }])

/-- C65.  For queries of the types A, AAAA, MX, TXT and HTTPS: either there is no answer from the cache, or it is
a well-formed reply to the query whose answers lead from the name asked for over aliases to records of the
type asked for, each of them said by an earlier response under the same name and, with TTLs honoured, not
over; or the answers do not fit the space.
Missing: NS, PTR (answered as CNAME), queries for CNAME, and answers that do not fit. -/
theorem cache_reply_partial (ha : Area s.cfg) (hev : ∀ e ∈ evs, e.WellFormed) (hh : history s evs = some ops)
    (hst : After s.cfg ops st) {behind : List Byte} {fuel : Nat} {now : Int} {m : Verif.Msg.Ctx Addr} {q : Msg} {x : Question}
    {ls : List (List Byte)} {code : Int} {out : List (Verif.Msg.Sent Addr)} (hv : q.Valid) (hq : q.qs = [x]) (hk : x.klass = 1)
    (hx : x.name = wire ls) (hls : RfcName ls) (han : q.an = [])
    (ht : x.type = 1 ∨ x.type = 15 ∨ x.type = 16 ∨ x.type = 28 ∨ x.type = 65) (hm : m.entity = q.bytes)
    (hb : behind.length < 16384) (h : fetch s.cfg st behind fuel now m = some (code, out)) :
    (code ≠ 0 ∧ out = []) ∨
    (∃ fs r, code = 0 ∧ Answers x.type ls fs ∧ (∀ f ∈ fs, Said s evs now f) ∧ ReplyWith q m.edns fs r ∧
      out = [Verif.Msg.sendBack { m with entity := r.bytes }]) ∨
    (∃ fs, Answers x.type ls fs ∧ (∀ f ∈ fs, Said s evs now f) ∧ behind.length < q.bytes.length + need fs) := by
  have hqne : q.qs ≠ [] := by simp [hq]
  have h12 : 12 ≤ q.bytes.length := by rw [Msg.bytes, List.length_append, header_length hv]; omega
  have hcap : (stripped q).bytes.length ≤ behind.length := by
    by_cases hc : (stripped q).bytes.length ≤ behind.length
    · exact hc
    · exfalso
      have : initFrom behind.length (q.bytes ++ behind) q.bytes.length true = none := by
        unfold initFrom
        rw [counts_eq hv]
        simp only [if_true, stripedLength_eq q behind hv hqne]
        rw [if_neg (by omega)]
      unfold fetch at h
      rw [hm, if_neg (by simp [initOk]; omega), this] at h
      simp at h
  have hle : (stripped q).bytes.length ≤ q.bytes.length := by
    rw [Msg.bytes, Msg.bytes, List.length_append, List.length_append, header_length hv,
      header_length (stripped_valid hv)]
    simp [Msg.body, stripped, rrBytes]
  obtain ⟨g, hg, hgc, hf0, hf1⟩ := fetch_eq (cfg := s.cfg) (st := st) (fuel := fuel) (now := now) hv hq hk hx hls han hm
    ((cached_iff _).2 (by unfold Cached; omega)) hcap
  by_cases hfuel : (getHostName (Verif.Msg.memAt (q.bytes ++ behind)) q.bytes.length 12 (some 254) fuel).out = .noFuel
  · rw [hf0 hfuel] at h; simp at h
  · rw [hf1 hfuel, if_pos (by omega)] at h
    cases hcl : cnameLoop s.cfg st now (g.cap + 1) (text ls) g with
    | none => rw [hcl] at h; simp at h
    | some y =>
      obtain ⟨o, g1⟩ := y
      rw [hcl] at h
      cases o with
      | none =>
        simp only [Option.some.injEq, Prod.mk.injEq] at h
        exact .inl ⟨by omega, h.2.symm⟩
      | some name =>
        dsimp only at h
        obtain ⟨target, fa, b1, rfl, b3, b4, b5, b6⟩ := cnameLoop_ok (Src := fun f => ValidName f.owner ∧ Said s evs now f)
          (t := x.type) (fun l y hl hy => alias_said ha hev hh hst l y hl hy) _ hls hg (by omega) hcl
        unfold rawRecords at h
        dsimp only at h
        rw [if_neg (by have := key_length (t := x.type) b1 (by omega); omega)] at h
        cases hans : answers s.cfg st (keyOf (text target) x.type 1) now with
        | none => rw [hans] at h; simp at h
        | some l =>
          rw [hans] at h
          dsimp only at h
          obtain ⟨fs, rfl, hfs⟩ := records_said ha hev hh hst b1 ht hans
          by_cases hne : fs = []
          · subst hne
            simp only [List.map_nil, rawLoop] at h
            rw [if_pos (by omega)] at h
            simp only [Option.some.injEq, Prod.mk.injEq] at h
            exact .inl ⟨by omega, h.2.symm⟩
          · have hans' := b6 fs (.records target fs hne (fun f hf => ⟨(hfs f hf).1, (hfs f hf).2.1⟩))
            have hsaid : ∀ f ∈ fa ++ fs, Said s evs now f := by
              intro f hf
              rcases List.mem_append.1 hf with hf | hf
              · exact (b5 f hf).2
              · exact (hfs f hf).2.2.2.2
            have hown : ∀ f ∈ fa ++ fs, ValidName f.owner := by
              intro f hf
              rcases List.mem_append.1 hf with hf | hf
              · exact (b5 f hf).1
              · rw [(hfs f hf).1]; exact b1.1
            by_cases hroom : (addAn (stripped q) (fa.map written)).bytes.length + (rrBytes (fs.map written)).length ≤ g1.cap
            · obtain ⟨g2, r1, r2, r3⟩ := rawLoop_ok b1.1 fs (-100) b3 (by omega)
                (fun f hf => ⟨(hfs f hf).1, (hfs f hf).2.1, (hfs f hf).2.2.1, (hfs f hf).2.2.2.1⟩) hroom
              rw [r1] at h
              dsimp only at h
              rw [if_neg hne, if_neg (by simp)] at h
              rw [addAn_addAn, ← List.map_append] at r2
              rcases ending_ok (m := m) r2 (by omega) (show (stripped q).qs = [x] from hq) han rfl rfl hx hown hans' (by omega) with
                ⟨e, _⟩ | ⟨e, _⟩ | ⟨r, er, e⟩
              · rw [e] at h
                simp only [Option.some.injEq, Prod.mk.injEq] at h
                exact .inl ⟨by omega, h.2.symm⟩
              · rw [e] at h
                simp only [Option.some.injEq, Prod.mk.injEq] at h
                exact .inl ⟨by omega, h.2.symm⟩
              · right; left
                rw [e] at h
                simp only [Option.some.injEq, Prod.mk.injEq] at h
                exact ⟨fa ++ fs, r, h.1.symm, hans', hsaid, ⟨er.valid, er.head, er.qs, er.num, er.an, er.ns, er.ar⟩, h.2.symm⟩
            · right; right
              refine ⟨fa ++ fs, hans', hsaid, ?_⟩
              have h1 := rrBytes_le_need (fa ++ fs)
              rw [List.map_append, rrBytes_append, List.length_append] at h1
              rw [addAn_length] at hroom
              omega

/-- C65, the other direction: if the cache holds records of the type asked for and no alias of the name, and
the reply fits, the query is answered with exactly these records, in the order of the cache. -/
theorem hit_answered_partial (ha : Area s.cfg) (hev : ∀ e ∈ evs, e.WellFormed) (hh : history s evs = some ops)
    (hst : After s.cfg ops st) {behind : List Byte} {fuel : Nat} {now : Int} {m : Verif.Msg.Ctx Addr} {q : Msg} {x : Question}
    {ls : List (List Byte)} {l : List (List Byte × Nat)} (hv : q.Valid) (hq : q.qs = [x]) (hk : x.klass = 1)
    (hx : x.name = wire ls) (hls : RfcName ls) (hroot : ls ≠ []) (han : q.an = [])
    (ht : x.type = 1 ∨ x.type = 15 ∨ x.type = 16 ∨ x.type = 28 ∨ x.type = 65) (hm : m.entity = q.bytes)
    (hb : behind.length < 16384)
    (hfuel : (getHostName (Verif.Msg.memAt (q.bytes ++ behind)) q.bytes.length 12 (some 254) fuel).out ≠ .noFuel)
    (hcn : cnameFrom s.cfg st (text ls) now = some none) (hl : answers s.cfg st (keyOf (text ls) x.type 1) now = some l)
    (hne : l ≠ []) (hroom : ∀ fs : List Fact, l = fs.map (fun f => (form f.value, f.ttl)) → (∀ f ∈ fs, f.owner = ls) →
      q.bytes.length + need fs + 11 ≤ behind.length) :
    ∃ fs r, fetch s.cfg st behind fuel now m = some (0, [Verif.Msg.sendBack { m with entity := r.bytes }]) ∧
      ReplyWith q m.edns fs r ∧ l = fs.map (fun f => (form f.value, f.ttl)) ∧ ∀ f ∈ fs, f.owner = ls ∧ f.type = x.type := by
  have hle : (stripped q).bytes.length ≤ q.bytes.length := by
    rw [Msg.bytes, Msg.bytes, List.length_append, List.length_append, header_length hv,
      header_length (stripped_valid hv)]
    simp [Msg.body, stripped, rrBytes]
  obtain ⟨fs, e, hfs⟩ := records_said ha hev hh hst hls ht hl
  have hroom := hroom fs e (fun f hf => (hfs f hf).1)
  have hne' : fs ≠ [] := by rintro rfl; exact hne (by simpa using e)
  have hneed := rrBytes_le_need fs
  obtain ⟨g, hg, hgc, hf0, hf1⟩ := fetch_eq (cfg := s.cfg) (st := st) (fuel := fuel) (now := now) hv hq hk hx hls han hm
    ((cached_iff _).2 (by unfold Cached; omega)) (show (stripped q).bytes.length ≤ behind.length by omega)
  obtain ⟨g2, r1, r2, r3⟩ := rawLoop_ok hls.1 fs (-100) hg (by omega)
    (fun f hf => ⟨(hfs f hf).1, (hfs f hf).2.1, (hfs f hf).2.2.1, (hfs f hf).2.2.2.1⟩) (by omega)
  have hans : Answers x.type ls fs := .records ls fs hne' (fun f hf => ⟨(hfs f hf).1, (hfs f hf).2.1⟩)
  have hfetch : fetch s.cfg st behind fuel now m = ending m (Hosts.replyFlags g2) := by
    rw [hf1 hfuel, if_pos (by omega), cnameLoop, hcn]
    dsimp only
    unfold rawRecords
    dsimp only
    rw [if_neg (by have := key_length (t := x.type) hls (by omega); omega), hl]
    dsimp only
    rw [e, r1]
    dsimp only
    rw [if_neg hne', if_neg (by simp)]
  rcases ending_ok (m := m) r2 (by omega) (show (stripped q).qs = [x] from hq) han rfl rfl hx
    (fun f hf => by rw [(hfs f hf).1]; exact hls.1) hans (by omega) with ⟨_, _, h2⟩ | ⟨_, f, hf, h2⟩ | ⟨r, er, e'⟩
  · rw [addAn_length] at h2; omega
  · rw [(hfs f hf).1] at h2; exact absurd h2 hroot
  · exact ⟨fs, r, by rw [hfetch, e'], ⟨er.valid, er.head, er.qs, er.num, er.an, er.ns, er.ar⟩, e,
      fun f hf => ⟨(hfs f hf).1, (hfs f hf).2.1⟩⟩

/-- C65.  A response that is taken hands all its records of cached types and class IN to the store, under their
names and types, except those that do not fit 512 bytes, and nothing else; a response that comes second is
not taken unless `CacheParallel` is set. -/
theorem response_handed {m : Msg} {fs : List Fact} {post : List Byte} {fuel : Nat} {question behind : List Byte}
    {clock : Nat → Int} {first : Bool} (hm : Response m fs)
    (e : addOps s (m.bytes ++ post) m.bytes.length fuel question behind clock first = some ops) :
    (first = false ∧ s.cfg.parallel = false → ops = []) ∧
    (first = true ∨ s.cfg.parallel = true →
      (∀ o ∈ ops, ∃ f ∈ fs, Small f ∧ ∃ j, o = Op.add (keyOf (text f.owner) f.type 1) (form f.value)
        (CacheTtl.effective s.rules s.fnm question behind (keyOf (text f.owner) f.type 1) f.ttl) (clock j)) ∧
      (∀ f ∈ fs, Small f → ∃ j, Op.add (keyOf (text f.owner) f.type 1) (form f.value)
        (CacheTtl.effective s.rules s.fnm question behind (keyOf (text f.owner) f.type 1) f.ttl) (clock j) ∈ ops)) :=
  addOps_eq hm e

/-- C14 at the level of messages: no sequence of messages, well-formed or not, brings the store out of order. -/
theorem any_messages_safe {s : Settings} {evs : List Event} {ops : List Op} (ha : Area s.cfg) (hh : history s evs = some ops) (st0 : St) :
    ∃ st, run s.cfg (St.init s.cfg st0) ops = some st ∧ ∀ key now, (0 : Byte) ∉ key → (answers s.cfg st key now).isSome :=
  never_stuck ha (history_wf hh) st0

end

/-! ### a concrete history -/

def exS : Settings := ⟨smallCfg, none, fun _ _ => false⟩

/-- A response to a question for `a.com`: an alias to `b.com`, an address of `b.com`, and as an additional
record an address of `bank`. -/
def exR : Msg := ⟨[0x12, 0x34, 0x81, 0x80], [⟨wire [str "a", str "com"], 1, 1⟩],
  [⟨[0xC0, 12], 5, 1, 300, wire [str "b", str "com"]⟩, ⟨wire [str "b", str "com"], 1, 1, 60, [1, 2, 3, 4]⟩], [],
  [⟨wire [str "bank"], 1, 1, 3600, [6, 6, 6, 6]⟩]⟩

def exFacts : List Fact := [⟨[str "a", str "com"], 5, 300, .name [str "b", str "com"]⟩,
  ⟨[str "b", str "com"], 1, 60, .raw [1, 2, 3, 4]⟩, ⟨[str "bank"], 1, 3600, .raw [6, 6, 6, 6]⟩]

theorem rfc_of {ls : List (List Byte)} (h : ∀ l ∈ ls, 1 ≤ l.length ∧ l.length ≤ 63 ∧ ∀ c ∈ l, c ≠ 46 ∧ c ≠ 0)
    (h2 : (text ls).length ≤ 253) : RfcName ls := ⟨h, h2⟩

theorem wireDenotes {b : List Byte} {p : Nat} {ls : List (List Byte)} (hv : ∀ l ∈ ls, 1 ≤ l.length ∧ l.length ≤ 63)
    (h : (b.drop p).take (wire ls).length = wire ls) (hl : p + (wire ls).length ≤ b.length) :
    ∃ k, Denotes (bytesAt b) b.length p ls k := by
  refine ⟨_, denotes_wire hv ?_ hl⟩
  intro i hi
  have : (wire ls)[i]? = b[p + i]? := by
    rw [← h, List.getElem?_take, if_pos hi, List.getElem?_drop]
  unfold bytesAt
  rw [List.getD_eq_getElem?_getD, ← this]
  simp [hi]

theorem exR_valid : exR.Valid := by
  have n1 : WireName (wire [str "a", str "com"]) := .label (str "a") _ (by decide) (by decide) (.label (str "com") _ (by decide) (by decide) .root)
  have n2 : WireName (wire [str "b", str "com"]) := .label (str "b") _ (by decide) (by decide) (.label (str "com") _ (by decide) (by decide) .root)
  have n3 : WireName (wire [str "bank"]) := .label (str "bank") _ (by decide) (by decide) .root
  refine ⟨rfl, ?_, ?_, by simp [exR], ?_, by decide, by decide, by decide, by decide⟩
  · intro q hq
    simp [exR] at hq; subst hq
    exact ⟨n1, by decide, by decide, by decide, by decide⟩
  · intro r hr
    simp [exR] at hr
    rcases hr with rfl | rfl
    · exact ⟨.pointer _ _ (by decide), by decide, by decide, by decide, by decide, by decide, by decide⟩
    · exact ⟨n2, by decide, by decide, by decide, by decide, by decide, by decide⟩
  · intro r hr
    simp [exR] at hr; subst hr
    exact ⟨n3, by decide, by decide, by decide, by decide, by decide, by decide⟩

theorem exR_response : Response exR exFacts := by
  refine ⟨exR_valid, by simp [exR], ?_⟩
  have rA : RfcName [str "a", str "com"] := rfc_of (by decide +kernel) (by decide)
  have rB : RfcName [str "b", str "com"] := rfc_of (by decide +kernel) (by decide)
  have rC : RfcName [str "bank"] := rfc_of (by decide +kernel) (by decide)
  refine .cons ⟨rfl, rfl, rfl, rA, ⟨_, .pointer _ 12 _ _ (by decide +kernel) (by decide) (by decide +kernel) (by decide +kernel)
    (Classical.choose_spec (wireDenotes (by decide) (by decide +kernel) (by decide +kernel)))⟩,
    ⟨by decide, rB, wireDenotes (by decide) (by decide +kernel) (by decide +kernel)⟩⟩ (by unfold Cached; decide) ?_
  refine .cons ⟨rfl, rfl, rfl, rB, wireDenotes (by decide) (by decide +kernel) (by decide +kernel),
    ⟨by decide, rfl, by decide⟩⟩ (by unfold Cached; decide) ?_
  refine .cons ⟨rfl, rfl, rfl, rC, wireDenotes (by decide) (by decide +kernel) (by decide +kernel),
    ⟨by decide, rfl, by decide⟩⟩ (by unfold Cached; decide) ?_
  exact .nil _

def exEv : List Event := [.response (exR.bytes ++ [1, 2, 3]) exR.bytes.length 50 (str "a.com") [] (fun _ => 1000) true, .sweep 1010]

theorem exEv_wf : ∀ e ∈ exEv, e.WellFormed := by
  intro e he
  simp [exEv] at he
  rcases he with rfl | rfl
  · exact ⟨exR, exFacts, _, exR_response, rfl, rfl⟩
  · trivial

def exOps : List Op := [.add (str "a.com 5 1") (str "b.com" ++ [0]) 300 1000, .add (str "b.com 1 1") [1, 2, 3, 4] 60 1000,
  .add (str "bank 1 1") [6, 6, 6, 6] 3600 1000, .sweep 1010]

theorem exHistory : history exS exEv = some exOps := by decide +kernel

def exSt : St := (run smallCfg (St.init smallCfg blank) exOps).getD blank

theorem exAfter : After exS.cfg exOps exSt := by
  refine ⟨blank, ?_⟩
  have h : (run smallCfg (St.init smallCfg blank) exOps).isSome = true := by decide +kernel
  obtain ⟨x, hx⟩ := Option.isSome_iff_exists.1 h
  show run smallCfg (St.init smallCfg blank) exOps = some exSt
  unfold exSt
  rw [hx]; rfl

/-- A query of type `t` for a name. -/
def ask (ls : List (List Byte)) (t : Nat) : Msg := ⟨[0x77, 0x77, 1, 0], [⟨wire ls, t, 1⟩], [], [], []⟩
def asker (q : Msg) : Verif.Msg.Ctx Unit := ⟨some (), 1, [], 0, 1, false, false, [], q.bytes⟩

/-- `a.com` is answered twenty seconds later with the alias and the address. -/
example : fetch smallCfg exSt (List.replicate 200 0) 50 1020 (asker (ask [str "a", str "com"] 1)) =
    some (0, [.udp 1 () false ([0x77, 0x77, 0x81, 0x80, 0, 1, 0, 2, 0, 0, 0, 0] ++ wire [str "a", str "com"] ++ [0, 1, 0, 1] ++
      [0xC0, 12, 0, 5, 0, 1, 0, 0, 1, 24, 0, 7] ++ wire [str "b", str "com"] ++
      [0xC0, 35, 0, 1, 0, 1, 0, 0, 0, 40, 0, 4, 1, 2, 3, 4])]) := by decide +kernel

/-- A minute later the address is over. -/
example : fetch smallCfg exSt (List.replicate 200 0) 50 1080 (asker (ask [str "a", str "com"] 1)) = some (-3, []) := by decide +kernel

/-- The hypotheses of `hit_answered_partial` hold for `b.com`. -/
example : cnameFrom exS.cfg exSt (text [str "b", str "com"]) 1020 = some none ∧
    answers exS.cfg exSt (keyOf (text [str "b", str "com"]) 1 1) 1020 = some [([1, 2, 3, 4], 40)] := by decide +kernel

/-! ### what is not kept -/

/-- C65 is false in general: records that do not fit the space behind the query are written all the same. -/
theorem only_said_false : ¬ OnlySaid := by
  intro h
  have hv : (ask [str "b", str "com"] 1).Valid := by
    refine ⟨rfl, ?_, by simp [ask], by simp [ask], by simp [ask], by decide, by decide, by decide, by decide⟩
    intro q hq
    simp [ask] at hq; subst hq
    exact ⟨.label (str "b") _ (by decide) (by decide) (.label (str "com") _ (by decide) (by decide) .root),
      by decide, by decide, by decide, by decide⟩
  obtain ⟨code, out, e, _⟩ := h exS exEv exOps exSt (List.replicate 42 0) 50 1020 (asker (ask [str "b", str "com"] 1))
    (ask [str "b", str "com"] 1) ⟨wire [str "b", str "com"], 1, 1⟩ [str "b", str "com"] ⟨by decide, by decide⟩ exEv_wf exHistory exAfter
    hv rfl rfl rfl (rfc_of (by decide +kernel) (by decide)) rfl (by unfold Cached; decide) rfl (by decide +kernel)
    (by decide +kernel) (by decide +kernel)
  have : fetch exS.cfg exSt (List.replicate 42 0) 50 1020 (asker (ask [str "b", str "com"] 1)) = none := by decide +kernel
  rw [this] at e
  simp at e

/-- C66, the claim: an answer from the cache about a name that was asked for comes from a response to a question
for this name, or some alias to it was handed to the cache. -/
def AskedOnly : Prop := ∀ (s : Settings) (evs : List Event) (ops : List Op) (st : St) (behind : List Byte) (fuel : Nat) (now : Int)
  (m : Verif.Msg.Ctx Unit) (ls : List (List Byte)) (t : Nat) (out : List (Verif.Msg.Sent Unit)),
  Area s.cfg → (∀ e ∈ evs, e.WellFormed) → history s evs = some ops → After s.cfg ops st → RfcName ls → m.entity = (ask ls t).bytes →
  fetch s.cfg st behind fuel now m = some (0, out) →
  ∃ b len fuel' q' behind' clock first, Event.response b len fuel' q' behind' clock first ∈ evs ∧
    (q' = text ls ∨ ∃ key ttl now', Op.add key (text ls ++ [0]) ttl now' ∈ ops)

/-- C66 is false: whatever records a server adds to a response are used for the names they claim to be for. -/
theorem asked_only_false : ¬ AskedOnly := by
  intro h
  obtain ⟨b, len, f, q', b', c, fi, h1, h2⟩ := h exS exEv exOps exSt (List.replicate 200 0) 50 1020 (asker (ask [str "bank"] 1)) [str "bank"] 1
    [.udp 1 () false ([0x77, 0x77, 0x81, 0x80, 0, 1, 0, 1, 0, 0, 0, 0] ++ wire [str "bank"] ++ [0, 1, 0, 1] ++
      [0xC0, 12, 0, 1, 0, 1, 0, 0, 13, 252, 0, 4, 6, 6, 6, 6])]
    ⟨by decide, by decide⟩ exEv_wf exHistory exAfter (rfc_of (by decide +kernel) (by decide)) rfl (by decide +kernel)
  simp only [exEv, List.mem_cons, Event.response.injEq, reduceCtorEq, List.not_mem_nil, or_false] at h1
  obtain ⟨rfl, rfl, rfl, rfl, rfl, rfl, rfl⟩ := h1
  rcases h2 with h2 | ⟨key, ttl, now', h2⟩
  · exact absurd h2 (by decide)
  · have hd : ∀ o ∈ exOps, (match o with | .add _ d _ _ => decide (d = text [str "bank"] ++ [0]) | .sweep _ => false) = false := by
      decide +kernel
    have := hd _ h2
    simp at this

/-- A cached PTR record is answered as an alias. -/
example : ((run smallCfg (St.init smallCfg blank) [.add (str "x C 1") (str "y" ++ [0]) 300 1000]).bind fun st =>
    fetch smallCfg st (List.replicate 200 0) 50 1020 (asker (ask [str "x"] 12))) =
    some (0, [.udp 1 () false ([0x77, 0x77, 0x81, 0x80, 0, 1, 0, 1, 0, 0, 0, 0] ++ wire [str "x"] ++ [0, 12, 0, 1] ++
      [0xC0, 12, 0, 5, 0, 1, 0, 0, 1, 24, 0, 3, 1, 121, 0])]) := by decide +kernel

end Verif.DnsCache
