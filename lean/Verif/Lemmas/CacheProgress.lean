import Verif.Props.DnsCacheAlias
import Verif.Lemmas.LearnProgress
/-! A query is always answered from the cache or not, if what the cache holds for it fits. -/

namespace Verif.DnsCache
open Message Name Parser Generator Spec
open Verif.Cache Verif.Cache.Spec

variable {Addr : Type}

/-- A message that arrives is a well-formed response whose names, as data of records, are all `P`. -/
def Event.Kind (P : List (List Byte) → Prop) : Event → Prop
  | .response b len _ _ _ _ _ => ∃ m fs post, Response m fs ∧ (∀ f ∈ fs, ∀ ls, f.value = .name ls → P ls) ∧
      b = m.bytes ++ post ∧ len = m.bytes.length
  | .sweep _ => True

/-- Following the aliases the cache holds, `fs`, leads from one name to the other. -/
inductive Leads (cfg : Cfg) (st : St) (now : Int) : List (List Byte) → List Fact → List (List Byte) → Prop where
  | here (ls : List (List Byte)) : Leads cfg st now ls [] ls
  | alias {ls tg dest : List (List Byte)} {ttl : Nat} {fs : List Fact} (h : cnameFrom cfg st (text ls) now = some (some (text tg, ttl)))
      (hl : Leads cfg st now tg fs dest) : Leads cfg st now ls (⟨ls, 5, ttl, .name tg⟩ :: fs) dest

/-- What the cache holds for the name and type fits `room` bytes behind `used` bytes: the aliases up to a name without alias
(for CNAME queries none are followed), and the records of this name. -/
def Fits (cfg : Cfg) (st : St) (now : Int) (ls : List (List Byte)) (t used room : Nat) : Prop :=
  ∀ fa target fs, (if t = 5 then fa = [] ∧ target = ls else Leads cfg st now ls fa target ∧ cnameFrom cfg st (text target) now = some none) →
    answers cfg st (keyOf (text target) t 1) now = some (fs.map fun f => (form f.value, f.ttl)) →
    (∀ f ∈ fs, f.owner = target ∧ f.type = t) → used + need (fa ++ fs) ≤ room

theorem need_append (a b : List Fact) : need (a ++ b) = need a + need b := by simp [need]

/-- The value can be written as a record of type `t` (a name always as an alias). -/
def Storable (P : List (List Byte) → Prop) (t : Nat) : Value → Prop
  | .name tg => (t = 2 ∨ t = 5 ∨ t = 12) ∧ RfcName tg ∧ P tg
  | v => Writable t v

/-- The record as `rawLoop` writes it. -/
def wrote (f : Fact) : RR := ⟨wire f.owner, match f.value with | .name _ => 5 | _ => f.type, 1, f.ttl, f.value.wire⟩

theorem wrote_le_need (fs : List Fact) : (rrBytes (fs.map wrote)).length ≤ need fs := by
  induction fs with
  | nil => simp [rrBytes, need]
  | cons f fs ih =>
    simp only [rrBytes, need, List.map_cons, List.flatten_cons, List.length_append, List.sum_cons, rr_bytes_length] at ih ⊢
    simp only [wrote] at ih ⊢
    omega

theorem entry_kind {P : List (List Byte) → Prop} {s : Settings} {evs : List Event} {ops : List Op} (hev : ∀ e ∈ evs, e.Kind P)
    (hh : history s evs = some ops) {e : Entry} (ho : Origin s.cfg ops e) :
    ∃ f0 : Fact, e.key = factKey f0 ∧ e.data = form f0.value ∧ Cached f0.type ∧ Small f0 ∧ (∃ b p r, Reads b p r f0) ∧
      ∀ ls, f0.value = .name ls → P ls := by
  obtain ⟨ttl, t, h1, h2, h3, h4⟩ := ho
  obtain ⟨ev, hev1, os, h5, h6⟩ := history_mem evs hh _ h1
  cases ev with
  | sweep n => simp [Event.ops] at h5; subst h5; simp at h6
  | response b len fuel question behind clock first =>
    obtain ⟨m, fs, post, hm, hP, rfl, rfl⟩ := hev _ hev1
    obtain ⟨k1, k2⟩ := addOps_eq hm h5
    have hfp : first = true ∨ s.cfg.parallel = true := by
      cases hf1 : first with
      | true => exact .inl rfl
      | false =>
        cases hp : s.cfg.parallel with
        | true => exact .inr rfl
        | false => rw [k1 ⟨hf1, hp⟩] at h6; simp at h6
    obtain ⟨f0, g1, g2, j, g3⟩ := (k2 hfp).1 _ h6
    simp only [opOf, Op.add.injEq] at g3
    obtain ⟨g3, g4, rfl, rfl⟩ := g3
    obtain ⟨hc, p, r, hr⟩ := says_reads hm.2.2 f0 g1
    exact ⟨f0, g3, g4, hc, g2, ⟨_, p, r, hr⟩, hP f0 g1⟩

theorem value_storable {P : List (List Byte) → Prop} {f0 : Fact} {t : Nat} {b : List Byte} {p : Nat} {r : RR} (hr : Reads b p r f0)
    (hs : Small f0) (h1 : f0.type = t) (hP : ∀ ls, f0.value = .name ls → P ls) : Storable P t f0.value := by
  have hv := hr.value
  unfold Small at hs
  subst h1
  cases hf : f0.value with
  | raw d => rw [hf] at hv hs; simp only [form] at hs; exact ⟨by omega, hv.2.2, by omega⟩
  | name ls => rw [hf] at hv; exact ⟨hv.1, hv.2.1, hP ls hf⟩
  | mx pref ls => rw [hf] at hv; exact ⟨hv.1, hv.2.1, hv.2.2.1⟩

section
variable {P : List (List Byte) → Prop} {s : Settings} {evs : List Event} {ops : List Op} {st : St}

/-- The search for an alias ends, and what it finds was a name of a response. -/
theorem alias_kind (ha : Area s.cfg) (hev : ∀ e ∈ evs, e.Kind P) (hh : history s evs = some ops) (hst : After s.cfg ops st)
    (now : Int) {ls : List (List Byte)} (hls : RfcName ls) :
    cnameFrom s.cfg st (text ls) now = some none ∨
    ∃ target ttl, cnameFrom s.cfg st (text ls) now = some (some (text target, ttl)) ∧ RfcName target ∧ P target ∧ ttl < 4294967296 := by
  obtain ⟨es, inv, hor, hsm⟩ := after_entries ha (history_wf hh) hst
  rw [cnameFrom_ok (cfgOk_of_area ha) inv (text_no_zero hls.1) (key_length hls (by omega))]
  cases he : es.find? (matching s.cfg (keyOf (text ls) 5 1) now) with
  | none => exact .inl rfl
  | some e =>
    right
    have hm := List.find?_some he
    have hmem := List.mem_of_find?_eq_some he
    simp only [matching, Bool.and_eq_true, beq_iff_eq] at hm
    obtain ⟨f0, k1, k2, k3, k4, ⟨b, p, r, k5⟩, k6⟩ := entry_kind hev hh (hor e hmem)
    obtain ⟨h1, h2⟩ := factKey_eq (t := 5) hls.1 (by omega) k3 k5.owner.1 (by rw [← k1, hm.1])
    have hv := k5.value
    have hlt : shown s.cfg now e < 4294967296 := by
      unfold shown; split
      · exact hsm e hmem
      · exact leftE_lt _ _
    cases hf : f0.value with
    | raw d => rw [hf] at hv; have := hv.1; omega
    | mx pref l => rw [hf] at hv; have := hv.1; omega
    | name target =>
      rw [hf] at hv
      refine ⟨target, shown s.cfg now e, ?_, hv.2.1, k6 _ hf, hlt⟩
      rw [Option.map_some, k2, hf]
      show some (some (cstr (text target ++ [0]), shown s.cfg now e)) = _
      rw [cstr_text hv.2.1.1 []]

/-- The search for records ends, and what it finds was said by responses. -/
theorem records_kind (ha : Area s.cfg) (hev : ∀ e ∈ evs, e.Kind P) (hh : history s evs = some ops) (hst : After s.cfg ops st)
    (now : Int) {ls : List (List Byte)} {t : Nat} (hls : RfcName ls) (ht : Cached t) :
    ∃ fs : List Fact, answers s.cfg st (keyOf (text ls) t 1) now = some (fs.map fun f => (form f.value, f.ttl)) ∧
      ∀ f ∈ fs, f.owner = ls ∧ f.type = t ∧ f.ttl < 4294967296 ∧ Storable P t f.value := by
  obtain ⟨es, inv, hor, hsm⟩ := after_entries ha (history_wf hh) hst
  rw [answers_ok (cfgOk_of_area ha) inv (keyOf_no_zero (text_no_zero hls.1))]
  obtain ⟨fs, h1, h2⟩ := exists_facts (P := fun f => f.ttl < 4294967296 ∧ Storable P t f.value) (ls := ls) (t := t)
    (answersE s.cfg es (keyOf (text ls) t 1) now) (by
      rintro ⟨d, r⟩ hx
      obtain ⟨e, h1, h2, rfl, h4, h5, rfl⟩ := mem_answersE.1 hx
      obtain ⟨f0, k1, k2, k3, k4, ⟨b, p, rr, k5⟩, k6⟩ := entry_kind hev hh (hor e h1)
      obtain ⟨g1, g2⟩ := factKey_eq (t := t) hls.1 (by unfold Cached at ht; omega) k3 k5.owner.1 (by rw [← k1, h2])
      have hlt : shown s.cfg now e < 4294967296 := by
        unfold shown; split
        · exact hsm e h1
        · exact leftE_lt _ _
      have hst := value_storable (f0 := f0) k5 k4 g2 k6
      exact ⟨f0.value, k2, hlt, hst⟩)
  exact ⟨fs, by rw [h1], h2⟩

theorem count_small {g : Gen} {m : Msg} (hg : Holds g m .answer) (hcap : g.cap < 16384) : m.count .answer < 65535 := by
  have := @an_le_bytes m
  have := hg.room
  rw [hg.out] at this
  show m.an.length < 65535
  omega

/-- The aliases are followed to their end, or until one does not fit. -/
theorem cnameLoop_done (ha : Area s.cfg) (hev : ∀ e ∈ evs, e.Kind P) (hh : history s evs = some ops) (hst : After s.cfg ops st)
    (now : Int) : ∀ (n : Nat) {ls : List (List Byte)} {g : Gen} {m : Msg}, RfcName ls → Holds g m .answer → g.cap < 16384 →
    g.cap + 1 ≤ n + m.bytes.length →
    ∃ o g', cnameLoop s.cfg st now n (text ls) g = some (o, g') ∧ ∀ name, o = some name →
      ∃ target fs, RfcName target ∧ name = text target ∧ Holds g' (addAn m (fs.map written)) .answer ∧ g'.cap = g.cap ∧
        Leads s.cfg st now ls fs target ∧ cnameFrom s.cfg st (text target) now = some none ∧
        ∀ f ∈ fs, f.type = 5 ∧ ∃ tg, f.value = .name tg ∧ RfcName tg ∧ P tg := by
  intro n
  induction n with
  | zero =>
    intro ls g m hls hg hcap hn
    have := hg.room; rw [hg.out] at this; omega
  | succ n ih =>
    intro ls g m hls hg hcap hn
    unfold cnameLoop
    rcases alias_kind ha hev hh hst now hls with h | ⟨target, ttl, h, h1, h2, h3⟩
    · rw [h]
      refine ⟨_, _, rfl, ?_⟩
      intro name e
      cases e
      exact ⟨ls, [], hls, rfl, by simpa [addAn_nil] using hg, rfl, .here _, h, by simp⟩
    · rw [h]
      dsimp only
      have hx : text [[97]] = str "a" := by decide
      have hv : (Rec.alias [[97]] target ttl).Valid := ⟨Hosts.exName97, pieces_of_valid h1.1, by
        have := wire_length_le (ls := target); have := h1.2; omega, h3⟩
      have happ : some (cname g (str "a") (text target) ttl) = append g (.alias [[97]] target ttl) := by
        rw [append, hx]
      have hrr : (Rec.alias [[97]] target ttl).rr = written ⟨ls, 5, ttl, .name target⟩ := rfl
      by_cases hroom : m.bytes.length + (Rec.alias [[97]] target ttl).rr.bytes.length ≤ g.cap
      · obtain ⟨g1, a1, a2, a3⟩ := append_exact g m .answer _ hg hv (Or.inl rfl) (count_small hg hcap) hroom
        rw [← happ] at a1
        simp only [Option.some.injEq] at a1
        rw [a1]
        dsimp only
        rw [if_neg (by simp)]
        rw [hrr, add_eq_addAn] at a2
        have hl := addAn_length m [written ⟨ls, 5, ttl, .name target⟩]
        have hp : 1 ≤ (rrBytes [written ⟨ls, 5, ttl, .name target⟩]).length := by
          simp [rrBytes, rr_bytes_length]; omega
        obtain ⟨o, g', b1, b2⟩ := ih h1 a2 (by omega) (by omega)
        refine ⟨o, g', b1, ?_⟩
        intro name e
        obtain ⟨dest, fs, c1, c2, c3, c4, c5, c6, c7⟩ := b2 name e
        refine ⟨dest, ⟨ls, 5, ttl, .name target⟩ :: fs, c1, c2, ?_, by omega, .alias h c5, c6, ?_⟩
        · rw [addAn_addAn] at c3; simpa using c3
        · intro f hf
          rcases List.mem_cons.1 hf with rfl | hf
          · exact ⟨rfl, target, rfl, h1, h2⟩
          · exact c7 f hf
      · rcases append_refused_partial g m .answer _ hg hv (Or.inl rfl) hroom with ⟨code, g1, junk, c1, c2, _⟩ | ⟨hr, _⟩
        · rw [← happ] at c1
          simp only [Option.some.injEq] at c1
          rw [c1]
          dsimp only
          rw [if_pos c2]
          exact ⟨none, g1, rfl, by simp⟩
        · exact absurd hr id

theorem generate_any (g : Gen) {f : Fact} (ho : ValidName f.owner) (ht : f.ttl < 4294967296) (hv : Storable P f.type f.value) :
    ∃ r : Rec, generate g (text f.owner) f.type 1 (form f.value) f.ttl = append g r ∧ r.Valid ∧ r.Fits .answer ∧ r.rr = wrote f := by
  obtain ⟨o, t, ttl, v⟩ := f
  dsimp only at ho ht hv ⊢
  cases v with
  | raw d =>
    obtain ⟨r, e1, e2, e3, e4⟩ := generate_fact g (f := ⟨o, t, ttl, .raw d⟩) ho ht hv
    refine ⟨r, e1, e2, e3, ?_⟩
    rw [e4]
    have := hv.1
    simp only [written, wrote]
    rw [if_neg (by omega)]
  | mx pref ls =>
    obtain ⟨r, e1, e2, e3, e4⟩ := generate_fact g (f := ⟨o, t, ttl, .mx pref ls⟩) ho ht hv
    refine ⟨r, e1, e2, e3, ?_⟩
    rw [e4]
    have := hv.1
    simp only [written, wrote]
    rw [if_neg (by omega)]
  | name ls =>
    obtain ⟨h1, h2, _⟩ := hv
    refine ⟨.alias o ls ttl, ?_, ⟨ho, pieces_of_valid h2.1, ?_, ht⟩, Or.inl rfl, rfl⟩
    · unfold generate
      rw [if_neg (by omega), if_pos (by omega), if_pos (by simp [form])]
      simp only [form, cstr_text h2.1 []]
      rfl
    · have := wire_length_le (ls := ls); have := h2.2; omega

/-- Records that fit are all written. -/
theorem rawLoop_done {ls : List (List Byte)} {t : Nat} (hls : ValidName ls) : ∀ (fs : List Fact) {g : Gen} {m : Msg} (ret : Int),
    Holds g m .answer → g.cap < 16384 → (∀ f ∈ fs, f.owner = ls ∧ f.type = t ∧ f.ttl < 4294967296 ∧ Storable P t f.value) →
    m.bytes.length + (rrBytes (fs.map wrote)).length ≤ g.cap →
    ∃ g', rawLoop g (text ls) t 1 ret (fs.map fun f => (form f.value, f.ttl)) = some (if fs = [] then ret else 0, g') ∧
      Holds g' (addAn m (fs.map wrote)) .answer ∧ g'.cap = g.cap := by
  intro fs
  induction fs with
  | nil => intro g m ret hg _ _ _; exact ⟨g, rfl, by simpa [addAn_nil] using hg, rfl⟩
  | cons f fs ih =>
    intro g m ret hg hcap hf hroom
    obtain ⟨ho, rfl, hl, hv⟩ := hf f (by simp)
    subst ho
    obtain ⟨r, e1, e2, e3, e4⟩ := generate_any g hls hl hv
    simp only [List.map_cons, rrBytes, List.flatten_cons, List.length_append] at hroom
    obtain ⟨g1, a1, a2, a3⟩ := append_exact g m .answer r hg e2 e3 (count_small hg hcap) (by rw [e4]; omega)
    rw [e4, add_eq_addAn] at a2
    obtain ⟨g2, b1, b2, b3⟩ := ih 0 a2 (by omega) (fun x hx => hf x (by simp [hx])) (by
      rw [addAn_length, a3]; simp only [rrBytes, List.map_cons, List.map_nil, List.flatten_cons, List.flatten_nil, List.append_nil]; omega)
    refine ⟨g2, ?_, ?_, by rw [b3, a3]⟩
    · simp only [List.map_cons, rawLoop]
      rw [e1, a1]
      dsimp only
      rw [if_neg (by simp), b1]
      simp
    · rw [addAn_addAn] at b2; simpa using b2

end

/-- The reply that ends with the answers `ws`, compressed. -/
structure Ends (q r : Msg) (edns : Bool) (x : Question) (ws : List RR) : Prop where
  valid : r.Valid
  head : r.head.length = 4
  qs : r.qs = q.qs
  num : r.an.length = ws.length
  an : ∀ i w y, ws[i]? = some w → r.an[i]? = some y → y.type = w.type ∧ y.klass = w.klass ∧ y.rdata = w.rdata ∧
    (w.klass = 1 → ∀ ls, (∀ l ∈ ls, 1 ≤ l.length ∧ l.length ≤ 63) → wire ls = ownerOf x.name (ws.take i) →
      Denotes (bytesAt r.bytes) r.bytes.length (12 + (qBytes r.qs).length + (rrBytes (r.an.take i)).length) ls 2)
  ns : r.ns = []
  ar : r.ar = if edns then [⟨[0], 41, 1280, 0, []⟩] else []

/-- The end of `fetch` for whatever answers. -/
theorem ending_done {m : Verif.Msg.Ctx Addr} {g : Gen} {q : Msg} {x : Question} {more : List Question} {ws : List RR}
    (hg : Holds g (addAn q ws) .answer) (hcap : g.cap < 16384) (hq : q.qs = x :: more) (han : q.an = []) (hns : q.ns = []) (har : q.ar = []) :
    (∃ code, code ≠ 0 ∧ ending m (Hosts.replyFlags g) = some (code, [])) ∨
    (∃ r : Msg, Ends q r m.edns x ws ∧ ending m (Hosts.replyFlags g) = some (0, [Verif.Msg.sendBack { m with entity := r.bytes }])) := by
  have h1 := Hosts.holds_flags hg
  have hn : (Hosts.replyFlags g).num = 6 := Hosts.purpose_num.2.1.1 h1.sect
  have hcap1 : (Hosts.replyFlags g).cap = g.cap := rfl
  have hE : (∃ code, code ≠ 0 ∧ ending m (Hosts.replyFlags g) = some (code, [])) ∨
      ∃ g3 mm, (if m.edns then (toAdditional 3 (Hosts.replyFlags g)).map (fun g3 => Generator.edns g3 1280)
          else some (0, Hosts.replyFlags g)) = some (0, g3) ∧ g3.out = mm.bytes ∧ mm.Valid ∧ mm.bytes.length ≤ g.cap ∧
        mm = (if m.edns then ((Hosts.flagged (addAn q ws)).add .additional ⟨[0], 41, 1280, 0, []⟩)
          else Hosts.flagged (addAn q ws)) := by
    cases he : m.edns with
    | false =>
      right
      refine ⟨Hosts.replyFlags g, _, rfl, h1.out, h1.valid, ?_, rfl⟩
      have := h1.room; rw [h1.out] at this; exact this
    | true =>
      have hh : Holds { Hosts.replyFlags g with num := 10 } (Hosts.flagged (addAn q ws)) .additional :=
        ⟨h1.out, h1.valid, rfl, trivial, h1.room⟩
      by_cases hroom : (Hosts.flagged (addAn q ws)).bytes.length + (Rec.edns 1280).rr.bytes.length ≤ g.cap
      · right
        obtain ⟨g3, b1, b2, b3⟩ := append_exact _ _ .additional (.edns 1280) hh ⟨by omega, by omega⟩ rfl
          (by simp [Msg.count, Hosts.flagged, addAn, har]) hroom
        simp only [append, Option.some.injEq] at b1
        refine ⟨g3, _, ?_, b2.out, b2.valid, ?_, rfl⟩
        · rw [if_pos rfl, toAdditional_reaches _ (by omega), Option.map_some, b1]
        · have := b2.room; rw [b2.out, b3] at this; exact this
      · left
        rcases append_refused_partial _ _ .additional (.edns 1280) hh ⟨by omega, by omega⟩ rfl hroom with ⟨code, g1, junk, c1, c2, _⟩ | ⟨hr, _⟩
        · simp only [append, Option.some.injEq] at c1
          refine ⟨-4, by omega, ?_⟩
          unfold ending
          rw [he, if_pos rfl, toAdditional_reaches _ (by omega), Option.map_some, c1]
          dsimp only
          rw [if_pos c2]
        · exact absurd hr id
  rcases hE with hE | ⟨g3, mm, e1, e2, e3, e4, hm⟩
  · exact .inl hE
  · have m2 : mm.qs = x :: more := by rw [hm, ← hq]; cases m.edns <;> rfl
    have m3 : mm.an = ws := by rw [hm]; cases m.edns <;> simp [Msg.add, Hosts.flagged, addAn, han]
    have m4 : mm.ns = [] := by rw [hm]; cases m.edns <;> simp [Msg.add, Hosts.flagged, addAn, hns]
    have m5 : mm.ar = if m.edns then [⟨[0], 41, 1280, 0, []⟩] else [] := by
      rw [hm]; cases m.edns <;> simp [Msg.add, Hosts.flagged, addAn, har]
    by_cases hroot : ∀ r ∈ mm.an, r.klass = 1 → r.name ≠ [0]
    · right
      obtain ⟨r, c1, c2, c3, c4, c5, c6, c7, c8, c9⟩ := compress_meaning mm x e3 m2 (by omega) hroot
      refine ⟨r, ⟨c2, c2.head, by rw [c4, m2, hq], by rw [c7, m3], ?_, by rw [c5, m4], by rw [c6, m5]⟩, ?_⟩
      · intro i w y hw hy
        obtain ⟨d1, d2, d3, d4, _, d6⟩ := c9 i w y (by rw [m3]; exact hw) hy
        refine ⟨d1, d2, d4, ?_⟩
        rw [m3] at d6
        exact d6
      · unfold ending
        rw [e1]
        dsimp only
        rw [if_neg (by simp), e2, c1]
        dsimp only
        rw [if_neg (by omega)]
    · left
      have hex : ∃ r ∈ mm.an, r.klass = 1 ∧ r.name = [0] := by
        simp only [Classical.not_forall, ne_eq, Classical.not_not] at hroot
        obtain ⟨r, h1, h2, h3⟩ := hroot
        exact ⟨r, h1, h2, h3⟩
      obtain ⟨b', hb'⟩ := compress_root_refused mm x e3 m2 (by omega) hex
      refine ⟨-6, by omega, ?_⟩
      unfold ending
      rw [e1]
      dsimp only
      rw [if_neg (by simp), e2, hb']
      dsimp only
      rw [if_pos (by omega)]

/-- The answers to a query from the cache: all of class IN, and the data of the aliases are names that are `P`. -/
def GoodAns (P : List (List Byte) → Prop) (ws : List RR) : Prop :=
  ∀ w ∈ ws, w.klass = 1 ∧ (w.type = 5 → ∃ tg, w.rdata = wire tg ∧ RfcName tg ∧ P tg)

/-- The cache's code comes to an end, and what is sent, if anything, is a well-formed reply. -/
theorem fetch_done {P : List (List Byte) → Prop} {s : Settings} {evs : List Event} {ops : List Op} {st : St} (ha : Area s.cfg)
    (hev : ∀ e ∈ evs, e.Kind P) (hh : history s evs = some ops) (hst : After s.cfg ops st) {behind : List Byte} {fuel : Nat} {now : Int}
    {m : Verif.Msg.Ctx Addr} {q : Msg} {x : Question} {more : List Question} {ls : List (List Byte)} (hv : q.Valid) (hq : q.qs = x :: more) (hk : x.klass = 1)
    (hx : x.name = wire ls) (hls : RfcName ls) (han : q.an = []) (hm : m.entity = q.bytes) (hb : behind.length < 16384)
    (hcap : q.bytes.length ≤ behind.length) (hfuel : q.bytes.length ≤ fuel)
    (hfit : Cached x.type → Fits s.cfg st now ls x.type q.bytes.length behind.length) :
    ∃ code out, fetch s.cfg st behind fuel now m = some (code, out) ∧ ((code ≠ 0 ∧ out = []) ∨
      (code = 0 ∧ ∃ r ws, Ends q r m.edns x ws ∧ GoodAns P ws ∧ out = [Verif.Msg.sendBack { m with entity := r.bytes }])) := by
  have hqne : q.qs ≠ [] := by simp [hq]
  have h12 : 12 ≤ q.bytes.length := by rw [Msg.bytes, List.length_append, header_length hv]; omega
  have hle : (stripped q).bytes.length ≤ q.bytes.length := by
    rw [Msg.bytes, Msg.bytes, List.length_append, List.length_append, header_length hv,
      header_length (stripped_valid hv)]
    simp [Msg.body, stripped, rrBytes]
  by_cases hc : Cached x.type
  · obtain ⟨g, hg, hgc, _, hf1⟩ := fetch_eq (cfg := s.cfg) (st := st) (fuel := fuel) (now := now) hv hq hk hx hls han hm
      ((cached_iff _).2 hc) (show (stripped q).bytes.length ≤ behind.length by omega)
    have hd : Denotes (bytesAt q.bytes) q.bytes.length 12 ls (wire ls).length := by
      have hat : At (bytesAt q.bytes) 12 (wire ls) := by
        intro i hi
        have hb : q.bytes = q.header ++ (wire ls ++ (u16 x.type ++ (u16 x.klass ++ (qBytes more ++ (rrBytes q.an ++ (rrBytes q.ns ++ rrBytes q.ar)))))) := by
          simp [Msg.bytes, Msg.body, hq, qBytes, Question.bytes, hx]
        unfold bytesAt
        rw [hb, List.getD_eq_getElem?_getD, List.getElem?_append_right (by rw [header_length hv]; omega), header_length hv]
        rw [show 12 + i - 12 = i from by omega, List.getElem?_append_left hi]
        simp [hi]
      have hlen : 12 + (wire ls).length ≤ q.bytes.length := by
        simp [Msg.bytes, Msg.body, hq, qBytes, Question.bytes, hx, header_length hv]
      exact denotes_wire (fun l hl => ⟨(hls.1 l hl).1, (hls.1 l hl).2.1⟩) hat hlen
    rw [hf1 (decode_ends (denotes_congr hd (Nat.le_refl _) (fun i hi => bytesAt_append hi)) 254 hfuel)]
    have hfit := hfit hc
    -- what follows the aliases
    have key : ∀ {g1 : Gen} {target : List (List Byte)} {fa : List Fact}, RfcName target →
        Holds g1 (addAn (stripped q) (fa.map written)) .answer → g1.cap = g.cap →
        (if x.type = 5 then fa = [] ∧ target = ls else Leads s.cfg st now ls fa target ∧ cnameFrom s.cfg st (text target) now = some none) →
        (∀ f ∈ fa, f.type = 5 ∧ ∃ tg, f.value = .name tg ∧ RfcName tg ∧ P tg) →
        ∃ code out, (match rawRecords s.cfg st g1 (text target) x.type 1 now with
          | none => none
          | some (code, g'') => if code ≠ 0 then some (-3, []) else ending m (Hosts.replyFlags g'')) = some (code, out) ∧ ((code ≠ 0 ∧ out = []) ∨
          (code = 0 ∧ ∃ r ws, Ends q r m.edns x ws ∧ GoodAns P ws ∧ out = [Verif.Msg.sendBack { m with entity := r.bytes }])) := by
      intro g1 target fa ht hg1 hc1 hlead hfa
      obtain ⟨fs, hans, hfs⟩ := records_kind ha hev hh hst now ht hc
      have hroom := hfit fa target fs hlead hans (fun f hf => ⟨(hfs f hf).1, (hfs f hf).2.1⟩)
      rw [need_append] at hroom
      have n1 := rrBytes_le_need fa
      have n2 := wrote_le_need fs
      have n3 := addAn_length (stripped q) (fa.map written)
      unfold rawRecords
      dsimp only
      rw [if_neg (by have := key_length (t := x.type) ht (by unfold Cached at hc; omega); omega), hans]
      dsimp only
      obtain ⟨g2, r1, r2, r3⟩ := rawLoop_done ht.1 fs (-100) hg1 (by omega) hfs (by omega)
      rw [r1]
      dsimp only
      by_cases hne : fs = []
      · rw [if_pos hne, if_pos (by simp)]
        exact ⟨_, _, rfl, .inl ⟨by simp, rfl⟩⟩
      · rw [if_neg hne, if_neg (by simp)]
        rw [addAn_addAn] at r2
        rcases ending_done (m := m) r2 (by omega) (show (stripped q).qs = x :: more from hq) han rfl rfl with ⟨code, hne, e⟩ | ⟨r, er, e⟩
        · exact ⟨_, _, e, .inl ⟨hne, rfl⟩⟩
        · refine ⟨_, _, e, .inr ⟨rfl, r, _, ⟨er.valid, er.head, er.qs, er.num, er.an, er.ns, er.ar⟩, ?_, rfl⟩⟩
          intro w hw
          rcases List.mem_append.1 hw with hw | hw
          · obtain ⟨f, hf, rfl⟩ := List.mem_map.1 hw
            obtain ⟨_, tg, h2, h3, h4⟩ := hfa f hf
            refine ⟨rfl, fun _ => ⟨tg, ?_, h3, h4⟩⟩
            simp [written, h2, Value.wire]
          · obtain ⟨f, hf, rfl⟩ := List.mem_map.1 hw
            refine ⟨rfl, fun h5 => ?_⟩
            obtain ⟨_, h2, _, h4⟩ := hfs f hf
            cases hfv : f.value with
            | raw d =>
              rw [hfv] at h4
              simp only [wrote, hfv] at h5
              have := h4.1
              omega
            | mx p t =>
              rw [hfv] at h4
              simp only [wrote, hfv] at h5
              have := h4.1
              omega
            | name tg =>
              rw [hfv] at h4
              exact ⟨tg, by simp [wrote, hfv, Value.wire], h4.2.1, h4.2.2⟩
    by_cases h5 : x.type = 5
    · rw [if_neg (by simp [h5])]
      dsimp only
      exact key (fa := []) hls (by simpa [addAn_nil] using hg) rfl (by rw [if_pos h5]; exact ⟨rfl, rfl⟩) (by simp)
    · rw [if_pos h5]
      obtain ⟨o, g', e1, e2⟩ := cnameLoop_done ha hev hh hst now (g.cap + 1) hls hg (by omega) (by omega)
      rw [e1]
      cases o with
      | none => exact ⟨_, _, rfl, .inl ⟨by simp, rfl⟩⟩
      | some name =>
        dsimp only
        obtain ⟨target, fa, c1, rfl, c3, c4, c5, c6, c7⟩ := e2 name rfl
        exact key c1 c3 c4 (by rw [if_neg h5]; exact ⟨c5, c6⟩) c7
  · -- not a cached type
    obtain ⟨g, e1, e2, e3⟩ := init_strips_partial behind.length q behind hv hqne (by omega)
    rw [if_pos han] at e3
    obtain ⟨h2, h3, h4, h5⟩ := Hosts.holds_next e3
    have hnext : next (q.bytes ++ behind) q.bytes.length (Msg.counts q) Itr.init = some (⟨some 12, 1, .question, x.type, x.klass, 0⟩, some 12) := by
      have hch := chain_msg q behind q.bytes.length hv (Nat.le_refl _) hqne
      have hit : items q = qItem x :: (more.map qItem ++ (q.an.map (rItem .answer) ++ (q.ns.map (rItem .nameServer) ++ q.ar.map (rItem .additional)))) := by
        simp [items, hq]
      rw [hit] at hch
      simp only [expect] at hch
      cases hch with
      | cons hn hp _ =>
        have hp' : some 12 = some _ := hp
        cases hp'
        exact hn
    have hcf : cachedType x.type = false := by
      rw [Bool.eq_false_iff]; intro h; exact hc ((cached_iff _).1 h)
    unfold fetch
    rw [hm, if_neg (by simp [initOk]; omega), e1]
    dsimp only
    rw [if_neg (by simp [h2])]
    unfold getByQuestion
    rw [counts_eq hv]
    dsimp only
    rw [hnext]
    dsimp only
    rw [if_neg (by simp), if_pos (Or.inr hcf)]
    dsimp only
    rw [if_pos (by simp)]
    exact ⟨_, _, rfl, .inl ⟨by simp, rfl⟩⟩

end Verif.DnsCache
