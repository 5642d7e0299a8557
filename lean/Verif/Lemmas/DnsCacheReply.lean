import Verif.Lemmas.DnsCache
import Verif.Lemmas.Hosts
/-! Lemmas on building a reply from cached data. -/

namespace Verif.DnsCache
open Message Name Parser Generator Spec

/-- The record as it is written before compression: an alias is owned by a placeholder. -/
def written (f : Fact) : RR := ⟨if f.type = 5 then wire [[97]] else wire f.owner, f.type, 1, f.ttl, f.value.wire⟩

/-- The message with more answers. -/
def addAn (m : Msg) (rs : List RR) : Msg := { m with an := m.an ++ rs }

theorem addAn_nil (m : Msg) : addAn m [] = m := by simp [addAn]
theorem addAn_addAn (m : Msg) (a b : List RR) : addAn (addAn m a) b = addAn m (a ++ b) := by simp [addAn]
theorem add_eq_addAn (m : Msg) (r : RR) : m.add .answer r = addAn m [r] := rfl

theorem addAn_length (m : Msg) (rs : List RR) : (addAn m rs).bytes.length = m.bytes.length + (rrBytes rs).length := by
  simp [addAn, Msg.bytes, Msg.header, Msg.body, rrBytes_append, u16_length]; omega

theorem an_le_bytes {m : Msg} : m.an.length ≤ m.bytes.length := by
  have : ∀ l : List RR, l.length ≤ (rrBytes l).length := by
    intro l
    induction l with
    | nil => simp
    | cons r l ih => simp [rrBytes, rr_bytes_length] at ih ⊢; omega
  have := this m.an
  simp [Msg.bytes, Msg.body]; omega

/-- The value can be written as a record of type `t`. -/
def Writable (t : Nat) : Value → Prop
  | .raw d => (t = 1 ∨ t = 28 ∨ t = 65 ∨ t = 16) ∧ d ≠ [] ∧ d.length < 65536
  | .name _ => False
  | .mx pref ls => t = 15 ∧ RfcName ls ∧ pref < 65536

theorem wire_length_le {ls : List (List Byte)} : (wire ls).length ≤ (text ls).length + 2 := by
  induction ls with
  | nil => simp [wire, text]
  | cons l ls ih =>
    cases ls with
    | nil => simp [wire, text]
    | cons l' ls => simp only [wire, text, List.length_cons, List.length_append] at ih ⊢; omega

theorem generate_fact (g : Gen) {f : Fact} (ho : ValidName f.owner) (ht : f.ttl < 4294967296) (hv : Writable f.type f.value) :
    ∃ r : Rec, generate g (text f.owner) f.type 1 (form f.value) f.ttl = append g r ∧ r.Valid ∧ r.Fits .answer ∧ r.rr = written f := by
  obtain ⟨h1, _, h3⟩ := generate_exact g 1
  obtain ⟨o, t, ttl, v⟩ := f
  dsimp only at ho ht hv ⊢
  cases v with
  | raw d =>
    obtain ⟨a, b, c⟩ := hv
    refine ⟨.raw o t 1 d ttl, h1 o t d ttl a, ⟨ho, by omega, by omega, by omega, by omega, b, c, ht⟩, Or.inl rfl, ?_⟩
    simp only [Rec.rr, written, Value.wire]
    rw [if_neg (by omega)]
  | name ls => exact absurd hv id
  | mx pref ls =>
    obtain ⟨rfl, b, c⟩ := hv
    refine ⟨.mx o pref ls ttl, h3 o pref ls ttl b.1 c, ⟨ho, b.1, ?_, c, ht⟩, Or.inl rfl, rfl⟩
    have := wire_length_le (ls := ls); have := b.2; omega

/-- Records that fit are all written. -/
theorem rawLoop_ok {ls : List (List Byte)} {t : Nat} (hls : ValidName ls) : ∀ (fs : List Fact) {g : Gen} {m : Msg} (ret : Int),
    Holds g m .answer → g.cap < 16384 → (∀ f ∈ fs, f.owner = ls ∧ f.type = t ∧ f.ttl < 4294967296 ∧ Writable t f.value) →
    m.bytes.length + (rrBytes (fs.map written)).length ≤ g.cap →
    ∃ g', rawLoop g (text ls) t 1 ret (fs.map fun f => (form f.value, f.ttl)) = some (if fs = [] then ret else 0, g') ∧
      Holds g' (addAn m (fs.map written)) .answer ∧ g'.cap = g.cap := by
  intro fs
  induction fs with
  | nil => intro g m ret hg _ _ _; exact ⟨g, rfl, by simpa [addAn_nil] using hg, rfl⟩
  | cons f fs ih =>
    intro g m ret hg hcap hf hroom
    obtain ⟨ho, rfl, hl, hv⟩ := hf f (by simp)
    subst ho
    obtain ⟨r, e1, e2, e3, e4⟩ := generate_fact g hls hl hv
    simp only [List.map_cons, rrBytes, List.flatten_cons, List.length_append] at hroom
    have hc : m.count .answer < 65535 := by
      have h1 := @an_le_bytes m
      have : m.count .answer = m.an.length := rfl
      omega
    obtain ⟨g1, a1, a2, a3⟩ := append_exact g m .answer r hg e2 e3 hc (by rw [e4]; omega)
    rw [e4, add_eq_addAn] at a2
    obtain ⟨g2, b1, b2, b3⟩ := ih 0 a2 (by omega) (fun x hx => hf x (by simp [hx])) (by
      rw [addAn_length, a3]; simp only [rrBytes, List.map_cons, List.map_nil, List.flatten_cons, List.flatten_nil, List.append_nil]; omega)
    refine ⟨g2, ?_, ?_, by rw [b3, a3]⟩
    · simp only [List.map_cons, rawLoop]
      rw [e1, a1]
      dsimp only
      rw [if_neg (by simp), b1]
      simp
    · rw [addAn_addAn] at b2; simpa using b2

/-- The aliases followed are in the reply, one after the other. -/
theorem cnameLoop_ok {cfg : Cache.Cfg} {st : Cache.St} {now : Int} {Src : Fact → Prop} {t : Nat}
    (hA : ∀ ls x, RfcName ls → cnameFrom cfg st (text ls) now = some (some x) →
      ∃ target, RfcName target ∧ x.1 = text target ∧ x.2 < 4294967296 ∧ Src ⟨ls, 5, x.2, .name target⟩) :
    ∀ (n : Nat) {ls : List (List Byte)} {g g' : Gen} {m : Msg} {name : List Byte}, RfcName ls → Holds g m .answer → g.cap < 16384 →
    cnameLoop cfg st now n (text ls) g = some (some name, g') →
    ∃ target fs, RfcName target ∧ name = text target ∧ Holds g' (addAn m (fs.map written)) .answer ∧ g'.cap = g.cap ∧
      (∀ f ∈ fs, Src f) ∧ ∀ fs', Answers t target fs' → Answers t ls (fs ++ fs') := by
  intro n
  induction n with
  | zero => intro ls g g' m name _ _ _ e; simp [cnameLoop] at e
  | succ n ih =>
    intro ls g g' m name hls hg hcap e
    unfold cnameLoop at e
    cases hc : cnameFrom cfg st (text ls) now with
    | none => rw [hc] at e; simp at e
    | some o =>
      rw [hc] at e
      cases o with
      | none =>
        simp only [Option.some.injEq, Prod.mk.injEq] at e
        obtain ⟨rfl, rfl⟩ := e
        exact ⟨ls, [], hls, rfl, by simpa [addAn_nil] using hg, rfl, by simp, fun fs' h => h⟩
      | some x =>
        obtain ⟨target, h1, h2, h3, h4⟩ := hA ls x hls hc
        obtain ⟨x1, x2⟩ := x
        dsimp only at h2 h3 h4 e
        subst h2
        have ha : text [[97]] = str "a" := by decide
        have hv : (Rec.alias [[97]] target x2).Valid := ⟨Hosts.exName97, pieces_of_valid h1.1, by
          have := wire_length_le (ls := target); have := h1.2; omega, h3⟩
        have happ : some (cname g (str "a") (text target) x2) = append g (.alias [[97]] target x2) := by
          rw [append, ha]
        have hrr : (Rec.alias [[97]] target x2).rr = written ⟨ls, 5, x2, .name target⟩ := rfl
        have hcount : m.count .answer < 65535 := by
          have := @an_le_bytes m
          have := hg.room
          rw [hg.out] at this
          show m.an.length < 65535
          omega
        by_cases hroom : m.bytes.length + (Rec.alias [[97]] target x2).rr.bytes.length ≤ g.cap
        · obtain ⟨g1, a1, a2, a3⟩ := append_exact g m .answer _ hg hv (Or.inl rfl) hcount hroom
          rw [← happ] at a1
          simp only [Option.some.injEq] at a1
          rw [a1] at e
          dsimp only at e
          rw [if_neg (by simp)] at e
          rw [hrr, add_eq_addAn] at a2
          obtain ⟨tg, fs, b1, b2, b3, b4, b5, b6⟩ := ih h1 a2 (by omega) e
          refine ⟨tg, ⟨ls, 5, x2, .name target⟩ :: fs, b1, b2, ?_, by omega, ?_, ?_⟩
          · rw [addAn_addAn] at b3; simpa using b3
          · intro f hf
            rcases List.mem_cons.1 hf with rfl | hf
            · exact h4
            · exact b5 f hf
          · intro fs' h; exact .alias _ _ _ _ (b6 fs' h)
        · rcases append_refused_partial g m .answer _ hg hv (Or.inl rfl) hroom with ⟨code, g1, junk, c1, c2, _⟩ | ⟨hr, _⟩
          · rw [← happ] at c1
            simp only [Option.some.injEq] at c1
            rw [c1] at e
            dsimp only at e
            rw [if_pos c2] at e
            simp at e
          · exact absurd hr id

/-- The owner each answer is given by compression. -/
theorem owner_at {t : Nat} {ls : List (List Byte)} {fs : List Fact} (h : Answers t ls fs) (ht : t ≠ 5) :
    ∀ (i : Nat) (f : Fact), fs[i]? = some f → wire f.owner = ownerOf (wire ls) ((fs.map written).take i) := by
  induction h with
  | records ls fs hne h =>
    intro i f hf
    obtain ⟨h1, h2⟩ := h f (List.mem_of_getElem? hf)
    have : ((fs.map written).take i).filter (fun r => decide (r.type = 5 ∧ r.klass = 1)) = [] := by
      rw [List.filter_eq_nil_iff]
      intro r hr
      have := List.mem_of_mem_take hr
      obtain ⟨x, hx, rfl⟩ := List.mem_map.1 this
      have := (h x hx).2
      simp [written]; omega
    rw [ownerOf, this, h1]; rfl
  | alias ls target ttl fs h ih =>
    intro i f hf
    cases i with
    | zero => simp at hf; subst hf; rfl
    | succ i =>
      simp only [List.getElem?_cons_succ] at hf
      rw [List.map_cons, List.take_succ_cons, ownerOf_cons]
      have e : (if (written ⟨ls, 5, ttl, .name target⟩).type = 5 ∧ (written ⟨ls, 5, ttl, .name target⟩).klass = 1
          then (written ⟨ls, 5, ttl, .name target⟩).rdata else wire ls) = wire target := by simp [written, Value.wire]
      rw [e]
      exact ih i f hf

/-- dnscache.c 929-962: the end of `fetch`. -/
def ending {Addr : Type} (m : Verif.Msg.Ctx Addr) (g : Gen) : Option (Int × List (Verif.Msg.Sent Addr)) :=
  match (if m.edns then (toAdditional 3 g).map (fun g3 => Generator.edns g3 1280) else some (0, g)) with
  | none => none
  | some (code, g3) =>
    if code ≠ 0 then some (-4, [])
    else
      match compress g3.out with
      | none => none
      | some (l, b) => if l < 0 then some (-6, []) else some (0, [Verif.Msg.sendBack { m with entity := b }])

/-- The end of `fetch` for answers `ws` which, compressed, say `fs`. -/
theorem ending_gen {Addr : Type} {m : Verif.Msg.Ctx Addr} {g : Gen} {q : Msg} {x : Question} {ls : List (List Byte)}
    {fs : List Fact} {ws : List RR} (hg : Holds g (addAn q ws) .answer) (hcap : g.cap < 16384) (hq : q.qs = [x])
    (han : q.an = []) (hns : q.ns = []) (har : q.ar = []) (hx : x.name = wire ls)
    (hall : ∀ f ∈ fs, ValidName f.owner) (hlen : ws.length = fs.length)
    (ha : ∀ i f, fs[i]? = some f → ∃ w, ws[i]? = some w ∧ w.type = f.type ∧ w.klass = 1 ∧ w.ttl = f.ttl ∧ w.rdata = f.value.wire ∧
      (w.name = [0] → f.owner = []) ∧ wire f.owner = ownerOf (wire ls) (ws.take i)) :
    (ending m (Hosts.replyFlags g) = some (-4, []) ∧ m.edns = true ∧ g.cap < (addAn q ws).bytes.length + 11) ∨
    (ending m (Hosts.replyFlags g) = some (-6, []) ∧ ∃ f ∈ fs, f.owner = []) ∨
    (∃ r : Msg, ReplyWith q m.edns fs r ∧ ending m (Hosts.replyFlags g) = some (0, [Verif.Msg.sendBack { m with entity := r.bytes }])) := by
  have h1 := Hosts.holds_flags hg
  have hn : (Hosts.replyFlags g).num = 6 := Hosts.purpose_num.2.1.1 h1.sect
  have hcap1 : (Hosts.replyFlags g).cap = g.cap := rfl
  have hlen1 : (Hosts.flagged (addAn q ws)).bytes.length = (addAn q ws).bytes.length := by
    rw [← Hosts.flagged_bytes hg.valid]; simp
  have hE : (ending m (Hosts.replyFlags g) = some (-4, []) ∧ m.edns = true ∧ g.cap < (addAn q ws).bytes.length + 11) ∨
      ∃ g3 mm, (if m.edns then (toAdditional 3 (Hosts.replyFlags g)).map (fun g3 => Generator.edns g3 1280)
          else some (0, Hosts.replyFlags g)) = some (0, g3) ∧ g3.out = mm.bytes ∧ mm.Valid ∧ mm.bytes.length ≤ g.cap ∧
        mm = (if m.edns then ((Hosts.flagged (addAn q ws)).add .additional ⟨[0], 41, 1280, 0, []⟩)
          else Hosts.flagged (addAn q ws)) := by
    cases he : m.edns with
    | false =>
      right
      refine ⟨Hosts.replyFlags g, _, rfl, h1.out, h1.valid, ?_, rfl⟩
      have := h1.room; rw [h1.out] at this; exact this
    | true =>
      have hh : Holds { Hosts.replyFlags g with num := 10 } (Hosts.flagged (addAn q ws)) .additional :=
        ⟨h1.out, h1.valid, rfl, trivial, h1.room⟩
      have hlr : (Rec.edns 1280).rr.bytes.length = 11 := by decide
      by_cases hroom : (Hosts.flagged (addAn q ws)).bytes.length + (Rec.edns 1280).rr.bytes.length ≤ g.cap
      · right
        obtain ⟨g3, b1, b2, b3⟩ := append_exact _ _ .additional (.edns 1280) hh ⟨by omega, by omega⟩ rfl
          (by simp [Msg.count, Hosts.flagged, addAn, har]) hroom
        simp only [append, Option.some.injEq] at b1
        refine ⟨g3, _, ?_, b2.out, b2.valid, ?_, rfl⟩
        · rw [if_pos rfl, toAdditional_reaches _ (by omega), Option.map_some, b1]
        · have := b2.room; rw [b2.out, b3] at this; exact this
      · left
        rcases append_refused_partial _ _ .additional (.edns 1280) hh ⟨by omega, by omega⟩ rfl hroom with ⟨code, g1, junk, c1, c2, _⟩ | ⟨hr, _⟩
        · simp only [append, Option.some.injEq] at c1
          refine ⟨?_, rfl, by omega⟩
          unfold ending
          rw [he, if_pos rfl, toAdditional_reaches _ (by omega), Option.map_some, c1]
          dsimp only
          rw [if_pos c2]
        · exact absurd hr id
  rcases hE with hE | ⟨g3, mm, e1, e2, e3, e4, hm⟩
  · exact .inl hE
  · right
    have m1 : mm.head = (Hosts.flagged (addAn q ws)).head := by rw [hm]; cases m.edns <;> rfl
    have m2 : mm.qs = [x] := by rw [hm, ← hq]; cases m.edns <;> rfl
    have m3 : mm.an = ws := by rw [hm]; cases m.edns <;> simp [Msg.add, Hosts.flagged, addAn, han]
    have m4 : mm.ns = [] := by rw [hm]; cases m.edns <;> simp [Msg.add, Hosts.flagged, addAn, hns]
    have m5 : mm.ar = if m.edns then [⟨[0], 41, 1280, 0, []⟩] else [] := by
      rw [hm]; cases m.edns <;> simp [Msg.add, Hosts.flagged, addAn, har]
    by_cases hroot : ∀ r ∈ mm.an, r.klass = 1 → r.name ≠ [0]
    · right
      obtain ⟨r, c1, c2, c3, c4, c5, c6, c7, c8, c9⟩ := compress_meaning mm x e3 m2 (by omega) hroot
      refine ⟨r, ⟨c2, ?_, by rw [c4, m2, hq], by rw [c7, m3, hlen], ?_, by rw [c5, m4], by rw [c6, m5]⟩, ?_⟩
      · rw [c3, m1]; rfl
      · intro i y f hy hf
        obtain ⟨w, w1, w2, w3, w4, w5, _, w7⟩ := ha i f hf
        obtain ⟨d1, d2, d3, d4, _, d6⟩ := c9 i w y (by rw [m3]; exact w1) hy
        refine ⟨d1.trans w2, d2.trans w3, d3.trans w4, d4.trans w5, 2, ?_⟩
        rw [← hx, ← m3] at w7
        have hvo := hall f (List.mem_of_getElem? hf)
        exact d6 w3 f.owner (fun l hl => ⟨(hvo l hl).1, (hvo l hl).2.1⟩) w7
      · unfold ending
        rw [e1]
        dsimp only
        rw [if_neg (by simp), e2, c1]
        dsimp only
        rw [if_neg (by omega)]
    · left
      have hex : ∃ r ∈ mm.an, r.klass = 1 ∧ r.name = [0] := by
        simp only [Classical.not_forall, ne_eq, Classical.not_not] at hroot
        obtain ⟨r, h1, h2, h3⟩ := hroot
        exact ⟨r, h1, h2, h3⟩
      obtain ⟨b', hb'⟩ := compress_root_refused mm x e3 m2 (by omega) hex
      refine ⟨?_, ?_⟩
      · unfold ending
        rw [e1]
        dsimp only
        rw [if_neg (by simp), e2, hb']
        dsimp only
        rw [if_pos (by omega)]
      · obtain ⟨r, h1, h2, h3⟩ := hex
        rw [m3] at h1
        obtain ⟨i, hi, rfl⟩ := List.getElem_of_mem h1
        have hf : fs[i]? = some fs[i] := List.getElem?_eq_getElem (by omega)
        obtain ⟨w, w1, _, _, _, _, w6, _⟩ := ha i _ hf
        rw [List.getElem?_eq_getElem hi, Option.some.injEq] at w1
        exact ⟨_, List.mem_of_getElem? hf, w6 (w1 ▸ h3)⟩

theorem ending_ok {Addr : Type} {m : Verif.Msg.Ctx Addr} {g : Gen} {q : Msg} {x : Question} {t : Nat} {ls : List (List Byte)}
    {fs : List Fact} (hg : Holds g (addAn q (fs.map written)) .answer) (hcap : g.cap < 16384) (hq : q.qs = [x])
    (han : q.an = []) (hns : q.ns = []) (har : q.ar = []) (hx : x.name = wire ls)
    (hall : ∀ f ∈ fs, ValidName f.owner) (ha : Answers t ls fs) (ht : t ≠ 5) :
    (ending m (Hosts.replyFlags g) = some (-4, []) ∧ m.edns = true ∧ g.cap < (addAn q (fs.map written)).bytes.length + 11) ∨
    (ending m (Hosts.replyFlags g) = some (-6, []) ∧ ∃ f ∈ fs, f.owner = []) ∨
    (∃ r : Msg, ReplyWith q m.edns fs r ∧ ending m (Hosts.replyFlags g) = some (0, [Verif.Msg.sendBack { m with entity := r.bytes }])) := by
  refine ending_gen hg hcap hq han hns har hx hall (by simp) ?_
  intro i f hf
  refine ⟨written f, by rw [List.getElem?_map, hf]; rfl, rfl, rfl, rfl, rfl, ?_, owner_at ha ht i f hf⟩
  intro h3
  simp only [written] at h3
  split at h3
  · simp [wire] at h3
  · cases ho : f.owner with
    | nil => rfl
    | cons l ls' =>
      rw [ho] at h3; simp [wire] at h3
      have := (hall f (List.mem_of_getElem? hf) l (by rw [ho]; simp)).1
      rw [h3.2.1] at this; simp at this

/-- What follows the search for the records. -/
theorem fetch_eq {Addr : Type} {cfg : Cache.Cfg} {st : Cache.St} {behind : List Byte} {fuel : Nat} {now : Int}
    {m : Verif.Msg.Ctx Addr} {q : Msg} {x : Question} {more : List Question} {ls : List (List Byte)} (hv : q.Valid) (hq : q.qs = x :: more)
    (hk : x.klass = 1) (hx : x.name = wire ls) (hls : RfcName ls) (han : q.an = []) (hm : m.entity = q.bytes)
    (ht : cachedType x.type = true) (hcap : (stripped q).bytes.length ≤ behind.length) :
    ∃ g, Holds g (stripped q) .answer ∧ g.cap = behind.length ∧
      ((getHostName (Verif.Msg.memAt (q.bytes ++ behind)) q.bytes.length 12 (some 254) fuel).out = .noFuel →
        fetch cfg st behind fuel now m = none) ∧
      ((getHostName (Verif.Msg.memAt (q.bytes ++ behind)) q.bytes.length 12 (some 254) fuel).out ≠ .noFuel →
        fetch cfg st behind fuel now m =
        match (if x.type ≠ 5 then cnameLoop cfg st now (g.cap + 1) (text ls) g else some (some (text ls), g)) with
        | none => none
        | some (none, _) => some (-3, [])
        | some (some name, g') =>
          match rawRecords cfg st g' name x.type 1 now with
          | none => none
          | some (code, g'') => if code ≠ 0 then some (-3, []) else ending m (Hosts.replyFlags g'')) := by
  have hqne : q.qs ≠ [] := by simp [hq]
  obtain ⟨g, e1, e2, e3⟩ := init_strips_partial behind.length q behind hv hqne hcap
  rw [if_pos han] at e3
  obtain ⟨h2, h3, h4, h5⟩ := Hosts.holds_next e3
  have h12 : 12 ≤ q.bytes.length := by rw [Msg.bytes, List.length_append, header_length hv]; omega
  have hxv := hv.qs x (by simp [hq])
  have hd : Denotes (bytesAt q.bytes) q.bytes.length 12 ls (wire ls).length := by
    have hat : At (bytesAt q.bytes) 12 (wire ls) := by
      intro i hi
      have hb : q.bytes = q.header ++ (wire ls ++ (u16 x.type ++ (u16 x.klass ++ (qBytes more ++ (rrBytes q.an ++ (rrBytes q.ns ++ rrBytes q.ar)))))) := by
        simp [Msg.bytes, Msg.body, hq, qBytes, Question.bytes, hx]
      unfold bytesAt
      rw [hb, List.getD_eq_getElem?_getD, List.getElem?_append_right (by rw [header_length hv]; omega), header_length hv]
      rw [show 12 + i - 12 = i from by omega, List.getElem?_append_left hi]
      simp [hi]
    have hlen : 12 + (wire ls).length ≤ q.bytes.length := by
      simp [Msg.bytes, Msg.body, hq, qBytes, Question.bytes, hx, header_length hv]
    exact denotes_wire (fun l hl => ⟨(hls.1 l hl).1, (hls.1 l hl).2.1⟩) hat hlen
  have hnext : next (q.bytes ++ behind) q.bytes.length (Msg.counts q) Itr.init = some (⟨some 12, 1, .question, x.type, x.klass, 0⟩, some 12) := by
    have hch := chain_msg q behind q.bytes.length hv (Nat.le_refl _) hqne
    have hit : items q = qItem x :: (more.map qItem ++ (q.an.map (rItem .answer) ++ (q.ns.map (rItem .nameServer) ++ q.ar.map (rItem .additional)))) := by
      simp [items, hq]
    rw [hit] at hch
    simp only [expect] at hch
    cases hch with
    | cons hn hp _ =>
      have hp' : some 12 = some _ := hp
      cases hp'
      exact hn
  refine ⟨(nextPurpose g).1, h3, by omega, ?_, ?_⟩
  · intro hfuel
    unfold fetch
    rw [hm, if_neg (by simp [initOk]; omega), e1]
    dsimp only
    rw [if_neg (by simp [h2])]
    unfold getByQuestion
    rw [counts_eq hv]
    dsimp only
    rw [hnext]
    dsimp only
    rw [if_neg (by simp), if_neg (by simp [hk, ht]), hfuel]
  intro hfuel
  have hdec := decode (post := behind) (N := 254) hd (by have := hls.2; omega) hfuel
  have hgbq : ∀ g1, getByQuestion cfg st (q.bytes ++ behind) q.bytes.length fuel now g1 =
      (match (if x.type ≠ 5 then cnameLoop cfg st now (g1.cap + 1) (text ls) g1 else some (some (text ls), g1)) with
        | none => none
        | some (none, g') => some (-5, g')
        | some (some name, g') =>
          match rawRecords cfg st g' name x.type 1 now with
          | none => none
          | some (code, g'') => some (if code ≠ 0 then -6 else 0, g'')) := by
    intro g1
    unfold getByQuestion
    rw [counts_eq hv]
    dsimp only
    rw [hnext]
    dsimp only
    rw [if_neg (by simp), if_neg (by simp [hk, ht]), hdec]
    dsimp only
    rw [cstr_text hls.1 [], hk]
    rfl
  unfold fetch
  rw [hm, if_neg (by simp [initOk]; omega), e1]
  dsimp only
  rw [hgbq, if_neg (by simp [h2])]
  generalize (if x.type ≠ 5 then cnameLoop cfg st now ((nextPurpose g).1.cap + 1) (text ls) (nextPurpose g).1
    else some (some (text ls), (nextPurpose g).1)) = A
  rcases A with _ | ⟨_ | name, g'⟩
  · rfl
  · simp
  · dsimp only
    cases rawRecords cfg st g' name x.type 1 now with
    | none => rfl
    | some y =>
      obtain ⟨code, g''⟩ := y
      dsimp only
      by_cases hc : code ≠ 0
      · rw [if_pos hc, if_pos (by simp)]
        simp [hc]
      · simp only [ne_eq, Classical.not_not] at hc
        subst hc
        simp only [ne_eq, not_true, if_false]
        rfl

end Verif.DnsCache
