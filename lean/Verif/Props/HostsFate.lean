import Verif.Props.Hosts
import Verif.Spec.HostsFate
/-! C25: what becomes of every well-formed query. -/

namespace Verif.Hosts
open Msg Generator Parser Message Name

variable {Addr : Type}

theorem kept_stripped {q : Message.Msg} (hv : q.Valid) : (stripped q).bytes.length = kept q := by
  rw [Message.Msg.bytes, List.length_append, header_length (stripped_valid hv)]
  simp [Message.Msg.body, stripped, rrBytes, kept]
  omega

theorem init_long {cap : Nat} {q : Message.Msg} {post : List Byte} (hv : q.Valid) (hq : q.qs ≠ []) (h : cap < kept q) :
    initFrom cap (q.bytes ++ post) q.bytes.length true = Option.none := by
  unfold initFrom
  rw [counts_eq hv]
  simp only [if_true, stripedLength_eq q post hv hq]
  rw [if_neg (by rw [kept_stripped hv]; omega)]

/-- What one set does, in terms of what the model returns. -/
def FateIs (r : Option (Try × List (Out Addr))) (m : Ctx Addr) (q : Message.Msg) (ls : List (List Byte)) : Fate → Prop
  | .refused => False
  | .passes => r = some (.none, [])
  | .redirected => r = some (.recursed, [])
  | .replies rd => ∃ a : Message.Msg, ReplyTo q ls m.edns m.type rd a ∧ a.Valid ∧ r = some (.ok, [.reply (sendBack { m with entity := a.bytes })])
  | .undefined => r = Option.none

theorem tryOne_ends {c : Cont} {es : List Entry} (h : Loaded c es) (fnm : List Byte → List Byte → Bool)
    (goodIp : List Byte → Option (List Byte)) (behind : List Byte) (m : Ctx Addr) (q : Message.Msg) (x : Question) (more : List Question) (ls : List (List Byte))
    (hm : m.entity = q.bytes) (hv : q.Valid) (hq : q.qs = x :: more) (hx : x.name = wire ls) (hls : ∀ l ∈ ls, 1 ≤ l.length ∧ l.length ≤ 63)
    (hcap : behind.length < 16384) (f : Fate) (hf : Ends fnm goodIp es m.domain m.type m.edns q behind.length f) :
    FateIs (tryOne fnm goodIp c behind m) m q ls f := by
  have hqne : q.qs ≠ [] := by simp [hq]
  -- everything up to the reply
  have hpre : ∀ e, AnswersBy fnm es m.domain m.type e → ∃ n : HType × Node, n.1 = (if m.type = 28 then .aaaa else e.type) ∧ n.2.data = e.data ∧
      tryOne fnm goodIp c behind m = (match initFrom behind.length (q.bytes ++ behind) q.bytes.length true with
        | Option.none => Option.none
        | some g =>
          match finish goodIp g m.edns n with
          | Option.none => Option.none
          | some Option.none => some (.none, [])
          | some (some b) => some (.ok, [.reply (sendBack { m with entity := b })])) := by
    intro e ha
    obtain ⟨f1, f2, n, f3, f4, f5⟩ := find_answer h fnm m ha
    refine ⟨n, f4, f5, ?_⟩
    unfold tryOne
    rw [if_neg f1, if_neg f2]
    show (match find c fnm m.domain (wanted c fnm m) with
        | Option.none => _ | some n => _) = _
    rw [f3, hm]
    rfl
  have hini : kept q ≤ behind.length → ∃ g, initFrom behind.length (q.bytes ++ behind) q.bytes.length true = some g ∧ g.cap = behind.length ∧
      Holds g (stripped q) (if q.an = [] then .question else .answer) := fun hk => init_strips_partial behind.length q behind hv hqne (by rw [kept_stripped hv]; exact hk)
  cases hf with
  | redirects h1 => exact (tryOne_cases h fnm goodIp behind m).1 h1
  | silent h1 => exact (tryOne_cases h fnm goodIp behind m).2.1 h1
  | long e ha hr =>
    obtain ⟨n, -, -, h3⟩ := hpre e ha
    show tryOne _ _ _ _ _ = _
    rw [h3, init_long hv hqne hr]
  | answered e ha hr han =>
    obtain ⟨n, -, -, h3⟩ := hpre e ha
    obtain ⟨g, g1, -, g3⟩ := hini hr
    rw [if_neg han] at g3
    show tryOne _ _ _ _ _ = _
    rw [h3, g1]
    dsimp only
    rw [finish_answered g3]
  | noList e t ha hr ht hd hg =>
    obtain ⟨n, h1, h2, h3⟩ := hpre e ha
    obtain ⟨g, g1, -, g3⟩ := hini hr
    show tryOne _ _ _ _ _ = _
    rw [h3, g1]
    dsimp only
    by_cases han : q.an = []
    · rw [if_pos han] at g3
      have h28 : m.type ≠ 28 := by
        intro h28
        rcases ha with ⟨h5, _⟩ | ⟨_, ⟨h5, _⟩ | ⟨_, hu | ⟨_, hu⟩⟩⟩
        · omega
        · omega
        · rw [hu.1] at ht; cases ht
        · rw [hu.1] at ht; cases ht
      rw [if_neg h28] at h1
      rw [finish_noList g3 (h1.trans ht) (h2.trans hd) hg]
    · rw [if_neg han] at g3
      rw [finish_answered g3]
  | full e rd ha hd hr han hf =>
    obtain ⟨n, h1, h2, h3⟩ := hpre e ha
    obtain ⟨g, g1, g2, g3⟩ := hini hr
    rw [if_pos han] at g3
    obtain ⟨k1, k2, k3⟩ := finish_full (edns := m.edns) g3 hd h1 h2
    rw [kept_stripped hv, g2] at k1 k3
    show tryOne _ _ _ _ _ = _
    rw [h3, g1]
    dsimp only
    rcases hf with hf | hf | ⟨hf1, hf2⟩
    · rw [k1 (Or.inl hf)]
    · rw [k1 (Or.inr hf)]
    · rw [k3 hf1 hf2]
  | overrun e rd ha hd han h5 hr hf =>
    obtain ⟨n, h1, h2, h3⟩ := hpre e ha
    obtain ⟨g, g1, g2, g3⟩ := hini (by omega)
    rw [if_pos han] at g3
    obtain ⟨k1, k2, k3⟩ := finish_full (edns := m.edns) g3 hd h1 h2
    rw [kept_stripped hv, g2] at k2
    show tryOne _ _ _ _ _ = _
    rw [h3, g1]
    dsimp only
    rw [k2 h5 hr hf]
  | replies e rd ha hd han hr =>
    obtain ⟨n, h1, h2, h3⟩ := hpre e ha
    obtain ⟨g, g1, g2, g3⟩ := hini (by omega)
    rw [if_pos han] at g3
    obtain ⟨r, r1, r2, r3⟩ := finish_reply (edns := m.edns) g3 (x := x) (more := more) (by simp [stripped, hq]) hx hls hd h1 h2
      (by rw [kept_stripped hv, g2]; exact hr) (by rw [g2]; exact hcap)
    refine ⟨r, ⟨r1.head, r1.qs, r1.an, r1.owner, r1.ns, r1.ar⟩, r2, ?_⟩
    rw [h3, g1]
    dsimp only
    rw [r3]

/-- What is seen of each fate: `r` is what the function returned and sent (-126: the query goes on), `ok` that the alias worker could be reached. -/
def Happens (r : Option (Int × List (Out Addr))) (m : Ctx Addr) (q : Message.Msg) (ls : List (List Byte)) (ok : Bool) : Fate → Prop
  | .refused => r = some (0, [.reply (sendBackRefused m)])
  | .passes => r = some (-126, [])
  | .redirected => r = if ok then some (0, [.handOver { m with entity := m.entity.take 2 }]) else some (-126, [])
  | .replies rd => ∃ a : Message.Msg, ReplyTo q ls m.edns m.type rd a ∧ a.Valid ∧ r = some (0, [.reply (sendBack { m with entity := a.bytes })])
  | .undefined => r = Option.none

/-- C25.  For all static and dynamic hosts data, every well-formed query with any questions and records and any room for the reply: what becomes of it is what the
specification says. -/
theorem hosts_decide {s : Hosts} {es ed : List Entry} (hs : LoadedOpt s.static es) (hd : LoadedOpt s.dynamic ed)
    (fnm : List Byte → List Byte → Bool) (goodIp : List Byte → Option (List Byte)) (behind : List Byte) (m : Ctx Addr) (q : Message.Msg) (x : Question) (more : List Question)
    (ls : List (List Byte)) (hm : m.entity = q.bytes) (hv : q.Valid) (hq : q.qs = x :: more) (hx : x.name = wire ls)
    (hls : ∀ l ∈ ls, 1 ≤ l.length ∧ l.length ≤ 63) (hcap : behind.length < 16384) (ok : Bool) (f : Fate)
    (hf : Decides s.blockIpv6 fnm goodIp es ed m.domain m.type m.edns q behind.length f) :
    Happens (hostsGet fnm goodIp s behind ok m) m q ls ok f := by
  have hA := hasBoth_iff hs hd fnm m.domain .a (by simp) (by simp)
  have hL := hasBoth_iff hs hd fnm m.domain .goodIpList (by simp) (by simp)
  have hX := hasBoth_iff hs hd fnm m.domain .excluded (by simp) (by simp)
  have hR : (s.blockIpv6 = true ∧ m.type = 28 ∧ (s.has fnm m.domain .a = true ∨ s.has fnm m.domain .goodIpList = true)) ↔
      Refuses s fnm es ed m.domain m.type := by
    unfold Refuses; rw [hA, hL]; grind
  have hopt : ∀ (o : Option Cont) (l : List Entry) (f : Fate), LoadedOpt o l → Ends fnm goodIp l m.domain m.type m.edns q behind.length f →
      FateIs (tryOpt fnm goodIp o behind m) m q ls f := by
    intro o l f ho he
    cases o with
    | some c => exact tryOne_ends ho fnm goodIp behind m q x more ls hm hv hq hx hls hcap f he
    | none =>
      have : l = [] := ho
      subst this
      have hsil : Silent fnm [] m.domain m.type := ⟨by simp [Has, entriesFor], fun _ => by simp [Has, entriesFor], fun _ => by simp [Has, entriesFor]⟩
      cases he with
      | redirects h => exact absurd hsil (redirects_not_silent h)
      | silent h => rfl
      | long e h => exact absurd hsil (answers_not_silent h)
      | answered e h => exact absurd hsil (answers_not_silent h)
      | noList e t h => exact absurd hsil (answers_not_silent h)
      | full e rd h => exact absurd hsil (answers_not_silent h)
      | overrun e rd h => exact absurd hsil (answers_not_silent h)
      | replies e rd h => exact absurd hsil (answers_not_silent h)
  -- neither refused nor excluded
  have hgo : ∀ f, ¬ Refuses s fnm es ed m.domain m.type → ¬ Excluded fnm es ed m.domain → FateIs (tryInner fnm goodIp s behind m) m q ls f →
      Happens (hostsGet fnm goodIp s behind ok m) m q ls ok f := by
    intro f h1 h2 h3
    cases f with
    | refused => exact h3.elim
    | passes =>
      have h3 : _ = _ := h3
      show hostsGet _ _ _ _ _ _ = _
      unfold hostsGet hostsTry
      rw [if_neg (fun hx => h1 (hR.1 hx)), if_neg (fun hx => h2 (hX.1 hx)), h3]
    | redirected =>
      have h3 : _ = _ := h3
      show hostsGet _ _ _ _ _ _ = _
      unfold hostsGet hostsTry
      rw [if_neg (fun hx => h1 (hR.1 hx)), if_neg (fun hx => h2 (hX.1 hx)), h3]
      cases ok <;> rfl
    | replies rd =>
      obtain ⟨r, r1, r2, r3⟩ := h3
      refine ⟨r, r1, r2, ?_⟩
      unfold hostsGet hostsTry
      rw [if_neg (fun hx => h1 (hR.1 hx)), if_neg (fun hx => h2 (hX.1 hx)), r3]
    | undefined =>
      have h3 : _ = _ := h3
      show hostsGet _ _ _ _ _ _ = _
      unfold hostsGet hostsTry
      rw [if_neg (fun hx => h1 (hR.1 hx)), if_neg (fun hx => h2 (hX.1 hx)), h3]
  cases hf with
  | refused hb ht h =>
    show hostsGet _ _ _ _ _ _ = _
    unfold hostsGet hostsTry
    rw [if_pos (hR.2 ⟨hb, ht, h⟩)]
  | excluded hb h =>
    show hostsGet _ _ _ _ _ _ = _
    unfold hostsGet hostsTry
    rw [if_neg (fun hx => hb (hR.1 hx)), if_pos (hX.2 h)]
  | static f hb hnx h hne =>
    refine hgo f hb hnx ?_
    have := hopt s.static es f hs h
    unfold tryInner
    cases f with
    | refused => exact this.elim
    | passes => exact absurd rfl hne
    | redirected => have h3 : _ = _ := this; rw [h3]; rfl
    | replies rd =>
      obtain ⟨r, r1, r2, r3⟩ := this
      exact ⟨r, r1, r2, by rw [r3]⟩
    | undefined => have h3 : _ = _ := this; rw [h3]; rfl
  | dynamic f hb hnx h h' =>
    refine hgo f hb hnx ?_
    have h1 : _ = _ := hopt s.static es .passes hs h
    unfold tryInner
    rw [h1]
    exact hopt s.dynamic ed f hd h'

theorem lines_says {lines : List (List Byte)} {es : List Entry} (h : Lines lines es) : ∀ e ∈ es, ∃ w, Word w ∧ Says w e.type e.data := by
  induction h with
  | nil => intro e he; cases he
  | skip _ _ ih => exact ih
  | foreign _ _ _ ih => exact ih
  | cons h _ ih =>
    intro e he
    rcases List.mem_cons.1 he with rfl | he
    · obtain ⟨w, hl, hw⟩ := h; exact ⟨w, hl.1, hw⟩
    · exact ih e he

theorem loadedOpt_says {o : Option Cont} {es : List Entry} (h : LoadedOpt o es) : ∀ e ∈ es, ∃ w, Word w ∧ Says w e.type e.data := by
  cases o with
  | none => have : es = [] := h; subst this; intro e he; cases he
  | some c => obtain ⟨lines, h1, -⟩ := h; exact lines_says h1

theorem used_mem {l : List Entry} {ty : HType} {e : Entry} (h : Used l ty e) : e ∈ l := by
  rcases h.2 with h | ⟨-, a, b, rfl, -⟩
  · exact List.mem_of_mem_head? (by rw [h]; rfl)
  · simp

theorem entriesFor_mem {fnm : List Byte → List Byte → Bool} {es : List Entry} {name : List Byte} {e : Entry} (h : e ∈ entriesFor fnm es name) : e ∈ es := by
  unfold entriesFor at h
  split at h
  · exact (List.mem_filter.1 h).1
  · split at h
    · cases h
    · exact (List.mem_filter.1 h).1

theorem answersBy_mem {fnm : List Byte → List Byte → Bool} {es : List Entry} {name : List Byte} {qtype : Nat} {e : Entry} (h : AnswersBy fnm es name qtype e) : e ∈ es := by
  refine entriesFor_mem (fnm := fnm) (name := name) ?_
  rcases h with ⟨_, h⟩ | ⟨_, ⟨_, h | ⟨_, h⟩⟩ | ⟨_, h | ⟨_, h⟩⟩⟩ <;> exact used_mem h

/-- An entry that answers has a record, or is a list that does not exist. -/
theorem has_record {fnm : List Byte → List Byte → Bool} {goodIp : List Byte → Option (List Byte)} {es : List Entry} {name : List Byte} {qtype : Nat} {e : Entry}
    (hs : ∀ e ∈ es, ∃ w, Word w ∧ Says w e.type e.data) (hu : ∀ t b, goodIp t = some b → b.length = 4) (h : AnswersBy fnm es name qtype e) :
    (∃ rd, RData goodIp qtype e rd) ∨ ∃ t, e.type = .goodIpList ∧ e.data = .text t ∧ goodIp t = Option.none := by
  have hm := answersBy_mem h
  obtain ⟨w, hwd, hw⟩ := hs e hm
  obtain ⟨nm, ty, d⟩ := e
  dsimp only at *
  rcases h with ⟨rfl, h, -⟩ | ⟨_, ⟨rfl, ⟨h, -⟩ | ⟨_, h, -⟩⟩ | ⟨rfl, ⟨h, -⟩ | ⟨_, h, -⟩⟩⟩ <;> dsimp only at h <;> subst h <;> cases hw
  · obtain ⟨target, rfl, h1⟩ := pieces_exist w
    have hl : (wire target).length ≤ (text target).length + 2 := by
      rw [← labelize_pieces h1, labelize_length, labelLength]; split <;> omega
    exact Or.inl ⟨_, .alias nm target h1 (by have := hwd.2.1; omega)⟩
  · exact Or.inl ⟨_, .v4 nm _ (by simp [Mapped])⟩
  · rename_i t ht _
    cases hg : goodIp t with
    | none => exact Or.inr ⟨t, rfl, rfl, hg⟩
    | some b => exact Or.inl ⟨b, .list nm t b hg (hu t b hg)⟩
  · rename_i ha _
    exact Or.inl ⟨_, .v6 nm _ _ ha.1⟩
  · exact Or.inl ⟨_, .v6 nm _ _ (by simp [Mapped])⟩

theorem ends_exists {fnm : List Byte → List Byte → Bool} {goodIp : List Byte → Option (List Byte)} {es : List Entry}
    (hs : ∀ e ∈ es, ∃ w, Word w ∧ Says w e.type e.data) (hu : ∀ t b, goodIp t = some b → b.length = 4) (name : List Byte) (qtype : Nat) (edns : Bool) (q : Message.Msg) (room : Nat) :
    ∃ f, Ends fnm goodIp es name qtype edns q room f := by
  rcases trichotomy fnm es name qtype with h | h | ⟨e, h⟩
  · exact ⟨_, .redirects h⟩
  · exact ⟨_, .silent h⟩
  · by_cases hr : kept q ≤ room
    · by_cases ha : q.an = []
      · rcases has_record hs hu h with ⟨rd, hd⟩ | ⟨t, h1, h2, h3⟩
        · by_cases h13 : kept q + 13 ≤ room
          · by_cases hrd : kept q + 13 + rd.length ≤ room
            · by_cases he : kept q + 13 + rd.length + (if edns then 11 else 0) ≤ room
              · exact ⟨_, .replies e rd h hd ha he⟩
              · exact ⟨_, .full e rd h hd hr ha (Or.inr (Or.inr ⟨hrd, by omega⟩))⟩
            · by_cases h5 : qtype = 5
              · exact ⟨_, .full e rd h hd hr ha (Or.inr (Or.inl ⟨h5, by omega⟩))⟩
              · exact ⟨_, .overrun e rd h hd ha h5 h13 (by omega)⟩
          · exact ⟨_, .full e rd h hd hr ha (Or.inl (by omega))⟩
        · exact ⟨_, .noList e t h hr h1 h2 h3⟩
      · exact ⟨_, .answered e h hr ha⟩
    · exact ⟨_, .long e h (by omega)⟩

/-- C25.  No case is left out: the specification says of every query what becomes of it.  (Lists hold IPv4 addresses.) -/
theorem all_decided {s : Hosts} {es ed : List Entry} (hs : LoadedOpt s.static es) (hd : LoadedOpt s.dynamic ed) (fnm : List Byte → List Byte → Bool)
    (goodIp : List Byte → Option (List Byte)) (hu : ∀ t b, goodIp t = some b → b.length = 4) (name : List Byte) (qtype : Nat) (edns : Bool) (q : Message.Msg) (room : Nat) :
    ∃ f, Decides s.blockIpv6 fnm goodIp es ed name qtype edns q room f := by
  by_cases hb : s.blockIpv6 = true ∧ qtype = 28 ∧ (Has fnm es name .a ∨ Has fnm ed name .a ∨ Has fnm es name .goodIpList ∨ Has fnm ed name .goodIpList)
  · exact ⟨_, .refused hb.1 hb.2.1 hb.2.2⟩
  by_cases hx : Has fnm es name .excluded ∨ Has fnm ed name .excluded
  · exact ⟨_, .excluded hb hx⟩
  obtain ⟨f, hf⟩ := ends_exists (fnm := fnm) (goodIp := goodIp) (loadedOpt_says hs) hu name qtype edns q room
  by_cases hp : f = .passes
  · subst hp
    obtain ⟨f', hf'⟩ := ends_exists (fnm := fnm) (goodIp := goodIp) (loadedOpt_says hd) hu name qtype edns q room
    exact ⟨f', .dynamic f' hb hx hf hf'⟩
  · exact ⟨f, .static f hb hx hf hp⟩

/-! ### cases that meet the hypotheses -/

/-- A query with two questions, the first for `a.com`, with an answer record `an`. -/
def twoMsg (an : List RR) : Message.Msg :=
  ⟨[0x12, 0x34, 0x01, 0x20], [⟨wire [str "a", str "com"], 1, 1⟩, ⟨wire [str "b"], 28, 1⟩], an, [], []⟩

theorem twoMsg_valid : (twoMsg []).Valid := by
  refine ⟨rfl, ?_, by simp [twoMsg], by simp [twoMsg], by simp [twoMsg], by decide, by decide, by decide, by decide⟩
  intro q hq
  simp [twoMsg] at hq
  rcases hq with rfl | rfl
  · exact ⟨.label (str "a") _ (by decide) (by decide) (.label (str "com") _ (by decide) (by decide) .root), by decide, by decide, by decide, by decide⟩
  · exact ⟨.label (str "b") _ (by decide) (by decide) .root, by decide, by decide, by decide, by decide⟩

def twoCtx (an : List RR) : Ctx Nat := ⟨some 7, 1, str "a.com", 0, 1, false, false, [], (twoMsg an).bytes⟩

theorem exAnswers : AnswersBy noFnm exEntries (str "a.com") 1 ⟨str "a.com", .a, .addr (some (Mapped 10 0 0 1))⟩ := by
  have he : entriesFor noFnm exEntries (str "a.com") = exEntries.take 2 := by decide +kernel
  refine Or.inr ⟨?_, Or.inl ⟨rfl, Or.inl ⟨rfl, Or.inl (by decide +kernel)⟩⟩⟩
  rintro ⟨e, h1, h2⟩
  rw [he] at h1; revert e; decide +kernel

theorem exNotExcluded : ¬ (Has noFnm exEntries (str "a.com") .excluded ∨ Has noFnm [] (str "a.com") .excluded) := by
  have he : entriesFor noFnm exEntries (str "a.com") = exEntries.take 2 := by decide +kernel
  rintro (⟨e, h1, h2⟩ | ⟨e, h1, h2⟩)
  · rw [he] at h1; revert e; decide +kernel
  · simp [entriesFor] at h1

/-- Both questions are repeated, the answer is for the first. -/
example : ∃ c, exCont = some c ∧ ∃ r : Message.Msg, ReplyTo (twoMsg []) [str "a", str "com"] false 1 [10, 0, 0, 1] r ∧
    hostsGet noFnm (fun _ => Option.none) ⟨some c, Option.none, true⟩ (List.replicate 300 0) true (twoCtx []) = some (0, [.reply (.udp 1 7 false r.bytes)]) := by
  obtain ⟨c, hc, _⟩ := lines_taken exLines_read
  have hl : Loaded c exEntries := ⟨_, exLines_read, hc⟩
  obtain ⟨r, r1, -, r3⟩ := hosts_decide (s := ⟨some c, Option.none, true⟩) (es := exEntries) (ed := []) hl rfl noFnm (fun _ => Option.none) (List.replicate 300 0)
    (twoCtx []) (twoMsg []) _ _ [str "a", str "com"] rfl twoMsg_valid rfl rfl (by decide) (by rw [List.length_replicate]; omega) true (.replies [10, 0, 0, 1])
    (.static _ (by rintro ⟨-, h, -⟩; revert h; decide) exNotExcluded
      (.replies _ _ exAnswers (.v4 _ _ (by simp [Mapped])) rfl (by rw [List.length_replicate]; decide +kernel)) (by simp))
  exact ⟨c, hc, r, r1, r3⟩

/-- Too little room for the address only; too little room for any record. -/
example : (exCont.bind fun c => hostsGet noFnm (fun _ => Option.none) ⟨some c, Option.none, true⟩ (List.replicate 45 0) true (twoCtx [])) = Option.none ∧
    (exCont.bind fun c => hostsGet noFnm (fun _ => Option.none) ⟨some c, Option.none, true⟩ (List.replicate 35 0) true (twoCtx [])) = some (-126, []) ∧
    (exCont.bind fun c => hostsGet noFnm (fun _ => Option.none) ⟨some c, Option.none, true⟩ (List.replicate 300 0) true
      (twoCtx [⟨[0], 1, 1, 5, [1, 2, 3, 4]⟩])) = some (-126, []) := by decide +kernel

/-! ### aliases that are no names -/

/-- The full claim: the data of an alias in a reply are a name. -/
def AliasIsName : Prop :=
  ∀ (c : Cont) (es : List Entry) (q r : Message.Msg) (ls : List (List Byte)) (x : Question) (rd behind : List Byte) (m : Ctx Nat),
    Loaded c es → m.entity = q.bytes → q.Valid → q.qs = [x] → q.an = [] → x.name = wire ls → m.type = 5 → r.Valid → ReplyTo q ls m.edns 5 rd r →
    hostsGet (fun _ _ => false) (fun _ => Option.none) ⟨some c, Option.none, false⟩ behind true m = some (0, [.reply (sendBack { m with entity := r.bytes })]) →
    ∃ target, ValidName target ∧ rd = wire target

def oddLines : List (List Byte) := [str "b..c a.com"]
def oddEntries : List Entry := [⟨str "a.com", .cname, .text (str "b..c")⟩]
def oddQuery : Message.Msg := ⟨[0x12, 0x34, 0x01, 0x20], [⟨wire [str "a", str "com"], 5, 1⟩], [], [], []⟩
def oddCtx : Ctx Nat := ⟨some 7, 1, str "a.com", 0, 5, false, false, [], oddQuery.bytes⟩

theorem oddQuery_valid : oddQuery.Valid := by
  refine ⟨rfl, ?_, by simp [oddQuery], by simp [oddQuery], by simp [oddQuery], by decide, by decide, by decide, by decide⟩
  intro q hq
  simp [oddQuery] at hq
  subst hq
  exact ⟨.label (str "a") _ (by decide) (by decide) (.label (str "com") _ (by decide) (by decide) .root), by decide, by decide, by decide, by decide⟩

theorem oddLines_read : Lines oddLines oddEntries := by
  refine .cons ⟨str "b..c", ⟨?_, ?_, [], str " ", [], rfl, by simp, by decide, by unfold Blank; decide, by simp⟩, .alias ?_ ⟨98, by decide, by decide⟩⟩ .nil
  · exact ⟨by decide, by decide, by unfold Blank; decide⟩
  · exact ⟨by decide, by decide, by unfold Blank; decide⟩
  · unfold NameChar; decide

/-- `b..c a.com` in the hosts file: the reply for the alias of `a.com` holds the name `b` and three bytes more. -/
theorem alias_is_name_false : ¬ AliasIsName := by
  intro h
  obtain ⟨c, hc, _⟩ := lines_taken oddLines_read
  have hl : Loaded c oddEntries := ⟨_, oddLines_read, hc⟩
  have he : entriesFor (fun _ _ => false) oddEntries (str "a.com") = oddEntries := by decide +kernel
  have hans : AnswersBy (fun _ _ => false) oddEntries (str "a.com") 5 ⟨str "a.com", .cname, .text (text [str "b", [], str "c"])⟩ :=
    Or.inl ⟨rfl, ⟨rfl, Or.inl (by decide +kernel)⟩⟩
  obtain ⟨r, r1, r2, r3⟩ := hosts_decide (s := ⟨some c, Option.none, false⟩) (es := oddEntries) (ed := []) hl rfl (fun _ _ => false) (fun _ => Option.none) (List.replicate 300 0)
    oddCtx oddQuery _ _ [str "a", str "com"] rfl oddQuery_valid rfl rfl (by decide) (by rw [List.length_replicate]; omega) true (.replies (wire [str "b", [], str "c"]))
    (.static _ (by simp) (by
      rintro (⟨e, h1, h2⟩ | ⟨e, h1, h2⟩)
      · rw [show oddCtx.domain = str "a.com" from rfl, he] at h1; revert e; decide +kernel
      · simp [entriesFor] at h1)
      (.replies _ _ hans (.alias _ _ ⟨by decide, by decide⟩ (by decide)) rfl (by rw [List.length_replicate]; decide +kernel)) (by simp))
  obtain ⟨target, t1, t2⟩ := h c oddEntries oddQuery r _ _ _ _ oddCtx hl rfl oddQuery_valid rfl rfl rfl rfl r2 r1 r3
  have hd : ∀ l ∈ target, 1 ≤ l.length := fun l hl => (t1 l hl).1
  have e : wire [str "b", [], str "c"] = [1, 98, 0, 1, 99, 0] := by decide +kernel
  rw [e] at t2
  match target, t1, t2 with
  | [], _, t2 => simp [wire] at t2
  | l :: ls, t1, t2 =>
    obtain ⟨a1, a2, -⟩ := t1 l (by simp)
    simp only [wire, List.cons.injEq] at t2
    obtain ⟨t3, t4⟩ := t2
    have hlen : l.length = 1 := by
      have := congrArg UInt8.toNat t3
      simp at this
      omega
    match l, hlen with
    | [c], _ =>
      match ls, t1, t4 with
      | [], _, t4 => simp [wire] at t4
      | l' :: ls', t1, t4 =>
        obtain ⟨b1, b2, -⟩ := t1 l' (by simp)
        simp only [wire, List.cons_append, List.nil_append, List.cons.injEq] at t4
        have := congrArg UInt8.toNat t4.2.1
        simp at this
        omega

end Verif.Hosts
