import Verif.Lemmas.Hosts
/-! C25: what is answered from hosts data. -/

namespace Verif.Hosts
open Msg Generator Parser Message Name

variable {Addr : Type}

/-- The hosts data were read from lines that stand for the entries `es`. -/
def Loaded (c : Cont) (es : List Entry) : Prop := ∃ lines, Lines lines es ∧ loadAll initCont lines = some c

/-- The same for data that may be absent. -/
def LoadedOpt : Option Cont → List Entry → Prop
  | Option.none, es => es = []
  | some c, es => Loaded c es

theorem has_iff {c : Cont} {es : List Entry} (h : Loaded c es) (fnm : List Byte → List Byte → Bool) (name : List Byte)
    (ty : HType) (hu : ty ≠ .unknown) (h6 : ty ≠ .aaaa) : typeExisting c fnm name ty = true ↔ Has fnm es name ty := by
  obtain ⟨lines, h1, h2⟩ := h
  have := (find_used h1 h2 fnm name ty hu).2
  unfold typeExisting Has
  rw [Option.isSome_iff_ne_none, ne_eq, this]
  constructor
  · intro hx
    by_cases he : ∃ e ∈ entriesFor fnm es name, e.type = ty
    · exact he
    · exact absurd ⟨fun x hx ht => he ⟨x, hx, ht⟩, fun h => absurd h h6⟩ hx
  · rintro ⟨e, he, ht⟩ ⟨h3, _⟩
    exact h3 e he ht

theorem used_has {fnm : List Byte → List Byte → Bool} {es : List Entry} {name : List Byte} {ty : HType} {e : Entry}
    (h : Used (entriesFor fnm es name) ty e) : Has fnm es name ty := by
  obtain ⟨h1, h2 | ⟨_, b, a, h2, _⟩⟩ := h
  · exact ⟨e, List.mem_of_mem_head? h2, h1⟩
  · exact ⟨e, by rw [h2]; simp, h1⟩

theorem has_used {fnm : List Byte → List Byte → Bool} {es : List Entry} {name : List Byte} {ty : HType}
    (h : Has fnm es name ty) : ∃ e, Used (entriesFor fnm es name) ty e := by
  obtain ⟨e, he, ht⟩ := h
  cases hf : (tried (entriesFor fnm es name)).find? (fun e => e.type = ty) with
  | none => exact absurd ht (tried_none.1 hf e he)
  | some x => exact ⟨x, used_tried hf⟩

/-- The type of entry looked for. -/
def wanted (c : Cont) (fnm : List Byte → List Byte → Bool) (m : Ctx Addr) : HType :=
  if m.type = 5 then .cname
  else if m.type = 28 then .aaaa
  else if typeExisting c fnm m.domain .a then .a else .goodIpList

theorem find_answer {c : Cont} {es : List Entry} (h : Loaded c es) (fnm : List Byte → List Byte → Bool) (m : Ctx Addr)
    {e : Entry} (ha : AnswersBy fnm es m.domain m.type e) :
    ¬ (m.type ≠ 5 ∧ typeExisting c fnm m.domain .cname = true) ∧ ¬ (m.type ≠ 5 ∧ m.type ≠ 1 ∧ m.type ≠ 28) ∧
    ∃ n, find c fnm m.domain (wanted c fnm m) = some n ∧ n.1 = (if m.type = 28 then .aaaa else e.type) ∧ n.2.data = e.data := by
  have hcn := has_iff h fnm m.domain .cname (by simp) (by simp)
  have hA := has_iff h fnm m.domain .a (by simp) (by simp)
  obtain ⟨lines, h1, h2⟩ := h
  -- what `find` gives for a type of which there is an entry
  have key : ∀ ty, ty ≠ .unknown → Used (entriesFor fnm es m.domain) ty e →
      ∃ n, find c fnm m.domain ty = some n ∧ n.1 = ty ∧ n.2.data = e.data := by
    intro ty hu hU
    obtain ⟨k1, k2⟩ := find_used h1 h2 fnm m.domain ty hu
    cases hf : find c fnm m.domain ty with
    | none =>
      obtain ⟨x, hx, hxt⟩ := used_has hU
      exact absurd hxt ((k2.1 hf).1 x hx)
    | some n =>
      obtain ⟨q1, e', q2, q3, q4⟩ := k1 n.1 n.2 (by rw [hf])
      refine ⟨n, rfl, q1, ?_⟩
      rcases q4 with q4 | ⟨rfl, q5, _⟩
      · rw [q3, used_unique q4 hU]
      · obtain ⟨x, hx, hxt⟩ := used_has hU
        exact absurd hxt (q5 x hx)
  rcases ha with ⟨h5, hU⟩ | ⟨hnc, ha⟩
  · refine ⟨by simp [h5], by simp [h5], ?_⟩
    unfold wanted
    rw [if_pos h5, if_neg (by omega), hU.1]
    exact key .cname (by simp) hU
  · have hncE : ¬ typeExisting c fnm m.domain .cname = true := fun hx => hnc (hcn.1 hx)
    rcases ha with ⟨ht, ha⟩ | ⟨ht, ha⟩
    · refine ⟨fun hx => hncE hx.2, by omega, ?_⟩
      unfold wanted
      rw [if_neg (show ¬ m.type = 5 by omega), if_neg (show ¬ m.type = 28 by omega), if_neg (show ¬ m.type = 28 by omega)]
      rcases ha with hU | ⟨hna, hU⟩
      · rw [if_pos (hA.2 (used_has hU)), hU.1]
        exact key .a (by simp) hU
      · rw [if_neg (fun hx => hna (hA.1 hx)), hU.1]
        exact key .goodIpList (by simp) hU
    · refine ⟨fun hx => hncE hx.2, by omega, ?_⟩
      unfold wanted
      rw [if_neg (by omega), if_pos ht, if_pos ht]
      rcases ha with hU | ⟨hna, hU⟩
      · exact key .aaaa (by simp) hU
      · obtain ⟨k1, k2⟩ := find_used h1 h2 fnm m.domain .aaaa (by simp)
        cases hf : find c fnm m.domain .aaaa with
        | none =>
          obtain ⟨x, hx, hxt⟩ := used_has hU
          exact absurd hxt ((k2.1 hf).2 rfl x hx)
        | some n =>
          obtain ⟨q1, e', q2, q3, q4⟩ := k1 n.1 n.2 (by rw [hf])
          refine ⟨n, rfl, q1, ?_⟩
          rcases q4 with q4 | ⟨_, _, q4⟩
          · exact absurd (used_has q4) hna
          · rw [q3, used_unique q4 hU]

/-- One set of hosts data, all three cases. -/
theorem tryOne_cases {c : Cont} {es : List Entry} (h : Loaded c es) (fnm : List Byte → List Byte → Bool)
    (goodIp : List Byte → Option (List Byte)) (behind : List Byte) (m : Ctx Addr) :
    (Redirects fnm es m.domain m.type → tryOne fnm goodIp c behind m = some (.recursed, [])) ∧
    (Silent fnm es m.domain m.type → tryOne fnm goodIp c behind m = some (.none, [])) ∧
    (∀ (e : Entry) (rd : List Byte) (q : Message.Msg) (x : Question) (ls : List (List Byte)),
      AnswersBy fnm es m.domain m.type e → RData goodIp m.type e rd →
      m.entity = q.bytes → q.Valid → q.qs = [x] → q.an = [] → x.name = wire ls →
      (∀ l ∈ ls, 1 ≤ l.length ∧ l.length ≤ 63) →
      12 + x.bytes.length + 13 + rd.length + (if m.edns then 11 else 0) ≤ behind.length → behind.length < 16384 →
      ∃ r : Message.Msg, ReplyTo q ls m.edns m.type rd r ∧ r.Valid ∧
        tryOne fnm goodIp c behind m = some (.ok, [.reply (sendBack { m with entity := r.bytes })])) := by
  have hcn := has_iff h fnm m.domain .cname (by simp) (by simp)
  have hA := has_iff h fnm m.domain .a (by simp) (by simp)
  have hL := has_iff h fnm m.domain .goodIpList (by simp) (by simp)
  refine ⟨?_, ?_, ?_⟩
  · rintro ⟨h5, hc⟩
    unfold tryOne
    rw [if_pos ⟨h5, hcn.2 hc⟩]
  · rintro ⟨h1, h2, h3⟩
    unfold tryOne
    rw [if_neg (by rintro ⟨_, hx⟩; exact h1 (hcn.1 hx))]
    split
    · rfl
    · rename_i ht
      have hf : find c fnm m.domain (wanted c fnm m) = Option.none := by
        unfold wanted
        by_cases h5 : m.type = 5
        · rw [if_pos h5]
          have : ¬ typeExisting c fnm m.domain .cname = true := fun hx => h1 (hcn.1 hx)
          unfold typeExisting at this
          simpa using this
        · rw [if_neg h5]
          by_cases h28 : m.type = 28
          · rw [if_pos h28]
            obtain ⟨lines, l1, l2⟩ := h
            rw [(find_used l1 l2 fnm m.domain .aaaa (by simp)).2]
            exact ⟨fun x hx hxt => (h3 h28).1 ⟨x, hx, hxt⟩, fun _ x hx hxt => (h3 h28).2 ⟨x, hx, hxt⟩⟩
          · have h1' : m.type = 1 := by omega
            rw [if_neg h28, if_neg (fun hx => (h2 h1').1 (hA.1 hx))]
            have : ¬ typeExisting c fnm m.domain .goodIpList = true := fun hx => (h2 h1').2 (hL.1 hx)
            unfold typeExisting at this
            simpa using this
      show (match find c fnm m.domain (wanted c fnm m) with
        | Option.none => _ | some n => _) = _
      rw [hf]
  · intro e rd q x ls ha hrd hm hv hq han hx hls hroom hcap
    obtain ⟨f1, f2, n, f3, f4, f5⟩ := find_answer h fnm m ha
    have hsb : (stripped q).bytes.length = 12 + x.bytes.length := by
      rw [Message.Msg.bytes, List.length_append, header_length (stripped_valid hv)]
      simp [Message.Msg.body, stripped, hq, han, rrBytes, qBytes]
    obtain ⟨g, g1, g2, g3⟩ := init_strips_partial behind.length q behind hv (by simp [hq])
      (by rw [hsb]; split at hroom <;> omega)
    rw [if_pos han] at g3
    obtain ⟨r, r1, r2, r3⟩ := finish_reply (edns := m.edns) (qtype := m.type) (e := e) (n := n) g3
      (x := x) (more := []) (by simp [stripped, hq]) hx hls hrd f4 f5 (by rw [hsb, g2]; exact hroom) (by rw [g2]; exact hcap)
    refine ⟨r, ⟨r1.head, r1.qs, r1.an, r1.owner, r1.ns, r1.ar⟩, r2, ?_⟩
    unfold tryOne
    rw [if_neg f1, if_neg f2]
    show (match find c fnm m.domain (wanted c fnm m) with
        | Option.none => _ | some n => _) = _
    rw [f3]
    dsimp only
    rw [hm, g1]
    dsimp only
    rw [r3]

/-- `Silent` is what remains. -/
theorem trichotomy (fnm : List Byte → List Byte → Bool) (es : List Entry) (name : List Byte) (qtype : Nat) :
    Redirects fnm es name qtype ∨ Silent fnm es name qtype ∨ ∃ e, AnswersBy fnm es name qtype e := by
  by_cases hc : Has fnm es name .cname
  · by_cases h5 : qtype = 5
    · obtain ⟨e, he⟩ := has_used hc
      exact Or.inr (Or.inr ⟨e, Or.inl ⟨h5, he⟩⟩)
    · exact Or.inl ⟨h5, hc⟩
  · right
    by_cases hA : Has fnm es name .a
    · obtain ⟨e, he⟩ := has_used hA
      by_cases h1 : qtype = 1
      · exact Or.inr ⟨e, Or.inr ⟨hc, Or.inl ⟨h1, Or.inl he⟩⟩⟩
      · by_cases h28 : qtype = 28
        · by_cases h6 : Has fnm es name .aaaa
          · obtain ⟨e6, he6⟩ := has_used h6
            exact Or.inr ⟨e6, Or.inr ⟨hc, Or.inr ⟨h28, Or.inl he6⟩⟩⟩
          · exact Or.inr ⟨e, Or.inr ⟨hc, Or.inr ⟨h28, Or.inr ⟨h6, he⟩⟩⟩⟩
        · exact Or.inl ⟨hc, fun h => absurd h h1, fun h => absurd h h28⟩
    · by_cases h1 : qtype = 1
      · by_cases hL : Has fnm es name .goodIpList
        · obtain ⟨e, he⟩ := has_used hL
          exact Or.inr ⟨e, Or.inr ⟨hc, Or.inl ⟨h1, Or.inr ⟨hA, he⟩⟩⟩⟩
        · exact Or.inl ⟨hc, fun _ => ⟨hA, hL⟩, fun h => absurd h (by omega)⟩
      · by_cases h28 : qtype = 28
        · by_cases h6 : Has fnm es name .aaaa
          · obtain ⟨e6, he6⟩ := has_used h6
            exact Or.inr ⟨e6, Or.inr ⟨hc, Or.inr ⟨h28, Or.inl he6⟩⟩⟩
          · exact Or.inl ⟨hc, fun h => absurd h h1, fun _ => ⟨h6, hA⟩⟩
        · exact Or.inl ⟨hc, fun h => absurd h h1, fun h => absurd h h28⟩

/-! ### Both sets of data -/

theorem hasBoth_iff {s : Hosts} {es ed : List Entry} (hs : LoadedOpt s.static es) (hd : LoadedOpt s.dynamic ed)
    (fnm : List Byte → List Byte → Bool) (name : List Byte) (ty : HType) (hu : ty ≠ .unknown) (h6 : ty ≠ .aaaa) :
    s.has fnm name ty = true ↔ Has fnm es name ty ∨ Has fnm ed name ty := by
  have key : ∀ (o : Option Cont) (l : List Entry), LoadedOpt o l →
      (o.any (fun c => typeExisting c fnm name ty) = true ↔ Has fnm l name ty) := by
    intro o l ho
    cases o with
    | none =>
      have : l = [] := ho
      subst this
      simp [Has, entriesFor]
    | some c => simpa using has_iff ho fnm name ty hu h6
  unfold Hosts.has
  rw [Bool.or_eq_true, key _ _ hs, key _ _ hd]

/-- An AAAA query is to be refused because there is an IPv4 entry or list. -/
def Refuses (s : Hosts) (fnm : List Byte → List Byte → Bool) (es ed : List Entry) (name : List Byte) (qtype : Nat) : Prop :=
  s.blockIpv6 = true ∧ qtype = 28 ∧
    (Has fnm es name .a ∨ Has fnm ed name .a ∨ Has fnm es name .goodIpList ∨ Has fnm ed name .goodIpList)

/-- The name is excluded in one of the sets. -/
def Excluded (fnm : List Byte → List Byte → Bool) (es ed : List Entry) (name : List Byte) : Prop :=
  Has fnm es name .excluded ∨ Has fnm ed name .excluded

theorem tryOpt_silent {o : Option Cont} {l : List Entry} (h : LoadedOpt o l) (fnm : List Byte → List Byte → Bool)
    (goodIp : List Byte → Option (List Byte)) (behind : List Byte) (m : Ctx Addr)
    (hs : Silent fnm l m.domain m.type) : tryOpt fnm goodIp o behind m = some (.none, []) := by
  cases o with
  | none => rfl
  | some c => exact (tryOne_cases h fnm goodIp behind m).2.1 hs

theorem not_silent_loaded {o : Option Cont} {l : List Entry} (h : LoadedOpt o l) (fnm : List Byte → List Byte → Bool)
    (name : List Byte) (qtype : Nat) (hs : ¬ Silent fnm l name qtype) : ∃ c, o = some c ∧ Loaded c l := by
  cases o with
  | none =>
    have : l = [] := h
    subst this
    exact absurd ⟨by simp [Has, entriesFor], fun _ => by simp [Has, entriesFor], fun _ => by simp [Has, entriesFor]⟩ hs
  | some c => exact ⟨c, rfl, h⟩

theorem redirects_not_silent {fnm : List Byte → List Byte → Bool} {l : List Entry} {name : List Byte} {qtype : Nat}
    (h : Redirects fnm l name qtype) : ¬ Silent fnm l name qtype := fun hs => hs.1 h.2

theorem answers_not_silent {fnm : List Byte → List Byte → Bool} {l : List Entry} {name : List Byte} {qtype : Nat} {e : Entry}
    (h : AnswersBy fnm l name qtype e) : ¬ Silent fnm l name qtype := by
  rintro ⟨h1, h2, h3⟩
  rcases h with ⟨_, h⟩ | ⟨_, ⟨ht, h | ⟨_, h⟩⟩ | ⟨ht, h | ⟨_, h⟩⟩⟩
  · exact h1 (used_has h)
  · exact (h2 ht).1 (used_has h)
  · exact (h2 ht).2 (used_has h)
  · exact (h3 ht).1 (used_has h)
  · exact (h3 ht).2 (used_has h)

/-- C25.  For every static and dynamic hosts data, every query and every further state:

* if the query is to be refused, a refusal is sent and nothing else happens;
* otherwise, if the name is excluded, or neither set has anything for the query, nothing is sent and the
  query goes on;
* otherwise the static data decide, and if they have nothing, the dynamic data: if they redirect, the query
  is handed to the alias worker; if an entry answers, the reply is exactly the one of that entry.

For all queries see `hosts_decide`; missing here: queries with several questions or answer records, and queries so long that the
reply does not fit behind them in the buffer (`reply_overflow`). -/
theorem hosts_override_partial {s : Hosts} {es ed : List Entry} (hs : LoadedOpt s.static es) (hd : LoadedOpt s.dynamic ed)
    (fnm : List Byte → List Byte → Bool) (goodIp : List Byte → Option (List Byte)) (behind : List Byte) (m : Ctx Addr) :
    (Refuses s fnm es ed m.domain m.type → ∀ ok, hostsGet fnm goodIp s behind ok m = some (0, [.reply (sendBackRefused m)])) ∧
    (¬ Refuses s fnm es ed m.domain m.type →
      (Excluded fnm es ed m.domain ∨ Silent fnm es m.domain m.type ∧ Silent fnm ed m.domain m.type →
        ∀ ok, hostsGet fnm goodIp s behind ok m = some (-126, [])) ∧
      (¬ Excluded fnm es ed m.domain → ∀ l, (l = es ∧ ¬ Silent fnm es m.domain m.type ∨ l = ed ∧ Silent fnm es m.domain m.type) →
        (Redirects fnm l m.domain m.type →
          hostsGet fnm goodIp s behind true m = some (0, [.handOver { m with entity := m.entity.take 2 }]) ∧
          hostsGet fnm goodIp s behind false m = some (-126, [])) ∧
        (∀ (e : Entry) (rd : List Byte) (q : Message.Msg) (x : Question) (ls : List (List Byte)),
          AnswersBy fnm l m.domain m.type e → RData goodIp m.type e rd →
          m.entity = q.bytes → q.Valid → q.qs = [x] → q.an = [] → x.name = wire ls →
          (∀ l ∈ ls, 1 ≤ l.length ∧ l.length ≤ 63) →
          12 + x.bytes.length + 13 + rd.length + (if m.edns then 11 else 0) ≤ behind.length → behind.length < 16384 →
          ∃ r : Message.Msg, ReplyTo q ls m.edns m.type rd r ∧ r.Valid ∧
            ∀ ok, hostsGet fnm goodIp s behind ok m = some (0, [.reply (sendBack { m with entity := r.bytes })])))) := by
  have hA := hasBoth_iff hs hd fnm m.domain .a (by simp) (by simp)
  have hL := hasBoth_iff hs hd fnm m.domain .goodIpList (by simp) (by simp)
  have hX := hasBoth_iff hs hd fnm m.domain .excluded (by simp) (by simp)
  have hR : (s.blockIpv6 = true ∧ m.type = 28 ∧ (s.has fnm m.domain .a = true ∨ s.has fnm m.domain .goodIpList = true)) ↔
      Refuses s fnm es ed m.domain m.type := by
    unfold Refuses; rw [hA, hL]; grind
  refine ⟨?_, fun hnr => ⟨?_, ?_⟩⟩
  · intro h ok
    unfold hostsGet hostsTry
    rw [if_pos (hR.2 h)]
  · intro h ok
    unfold hostsGet hostsTry
    rw [if_neg (fun hx => hnr (hR.1 hx))]
    by_cases hx : s.has fnm m.domain .excluded = true
    · rw [if_pos hx]
    · rw [if_neg hx]
      rcases h with h | ⟨h1, h2⟩
      · exact absurd (hX.2 h) hx
      · unfold tryInner
        rw [tryOpt_silent hs fnm goodIp behind m h1]
        dsimp only
        rw [tryOpt_silent hd fnm goodIp behind m h2]
  · intro hne l hl
    -- the set that decides
    have hdec : ¬ Silent fnm l m.domain m.type → ∃ c, Loaded c l ∧
        (∀ t o, tryOne fnm goodIp c behind m = some (t, o) → t ≠ .none → tryInner fnm goodIp s behind m = some (t, o)) := by
      intro hns
      rcases hl with ⟨rfl, _⟩ | ⟨rfl, hes⟩
      · obtain ⟨c, hc1, hc2⟩ := not_silent_loaded hs fnm _ _ hns
        refine ⟨c, hc2, fun t o h1 h2 => ?_⟩
        unfold tryInner
        rw [hc1]
        show (match tryOne fnm goodIp c behind m with | Option.none => _ | some (.none, _) => _ | some r => _) = _
        rw [h1]
        cases t <;> first | rfl | exact absurd rfl h2
      · obtain ⟨c, hc1, hc2⟩ := not_silent_loaded hd fnm _ _ hns
        refine ⟨c, hc2, fun t o h1 h2 => ?_⟩
        unfold tryInner
        rw [tryOpt_silent hs fnm goodIp behind m hes]
        dsimp only
        rw [hc1]
        exact h1
    have hpre : ∀ ok, hostsTry fnm goodIp s behind ok m = (match tryInner fnm goodIp s behind m with
        | Option.none => Option.none
        | some (.recursed, _) =>
          if ok then some (.recursed, [.handOver { m with entity := m.entity.take 2 }]) else some (.none, [])
        | some r => some r) := by
      intro ok
      unfold hostsTry
      rw [if_neg (fun hx => hnr (hR.1 hx)), if_neg (fun hx => hne (hX.1 hx))]
      generalize tryInner fnm goodIp s behind m = t
      rcases t with _ | ⟨t, o⟩
      · rfl
      · cases t <;> rfl
    refine ⟨?_, ?_⟩
    · intro h
      obtain ⟨c, hc, hk⟩ := hdec (redirects_not_silent h)
      have := hk _ _ ((tryOne_cases hc fnm goodIp behind m).1 h) (by simp)
      unfold hostsGet
      rw [hpre, hpre, this]
      exact ⟨rfl, rfl⟩
    · intro e rd q x ls ha hrd hm hv hq han hx hls hroom hcap
      obtain ⟨c, hc, hk⟩ := hdec (answers_not_silent ha)
      obtain ⟨r, r1, r2, r3⟩ := (tryOne_cases hc fnm goodIp behind m).2.2 e rd q x ls ha hrd hm hv hq han hx hls hroom hcap
      refine ⟨r, r1, r2, fun ok => ?_⟩
      have := hk _ _ r3 (by simp)
      unfold hostsGet
      rw [hpre, this]

/-! ### Non-vacuity -/

/-- A query for `a.com`, type A, with an EDNS record. -/
def qMsg : Message.Msg := ⟨[0x12, 0x34, 0x01, 0x20], [⟨wire [str "a", str "com"], 1, 1⟩], [], [], [⟨[0], 41, 4096, 0, []⟩]⟩

theorem qMsg_valid : qMsg.Valid := by
  refine ⟨rfl, ?_, by simp [qMsg], by simp [qMsg], ?_, by decide, by decide, by decide, by decide⟩
  · intro q hq
    simp [qMsg] at hq; subst hq
    exact ⟨.label (str "a") _ (by decide) (by decide) (.label (str "com") _ (by decide) (by decide) .root),
      by decide, by decide, by decide, by decide⟩
  · intro r hr
    simp [qMsg] at hr; subst hr
    exact ⟨.root, by decide, by decide, by decide, by decide, by decide, by decide⟩

def qCtx : Ctx Nat := ⟨some 7, 1, str "a.com", 0, 1, false, true, [], qMsg.bytes⟩

def noFnm : List Byte → List Byte → Bool := fun _ _ => false

def exCont : Option Cont := loadAll initCont (str "  " :: exLines)

/-- The example data answer the query with the first address written. -/
example : ∃ c, exCont = some c ∧ ∃ r : Message.Msg, ReplyTo qMsg [str "a", str "com"] true 1 [10, 0, 0, 1] r ∧
    hostsGet noFnm (fun _ => Option.none) ⟨some c, Option.none, true⟩ (List.replicate 3000 0) true qCtx =
      some (0, [.reply (.udp 1 7 false r.bytes)]) := by
  obtain ⟨c, hc, _⟩ := lines_taken exLines_read
  have hl : Loaded c exEntries := ⟨_, exLines_read, hc⟩
  have hs : LoadedOpt (⟨some c, Option.none, true⟩ : Hosts).static exEntries := hl
  have hd : LoadedOpt (⟨some c, Option.none, true⟩ : Hosts).dynamic [] := rfl
  obtain ⟨_, h2⟩ := hosts_override_partial hs hd noFnm (fun _ => Option.none) (List.replicate 3000 0) qCtx
  obtain ⟨_, h3⟩ := h2 (by rintro ⟨_, h, _⟩; revert h; decide)
  have he : entriesFor noFnm exEntries (str "a.com") = exEntries.take 2 := by decide +kernel
  have hU : Used (entriesFor noFnm exEntries (str "a.com")) .a ⟨str "a.com", .a, .addr (some (Mapped 10 0 0 1))⟩ :=
    ⟨rfl, Or.inl (by decide +kernel)⟩
  have hA : AnswersBy noFnm exEntries (str "a.com") 1 ⟨str "a.com", .a, .addr (some (Mapped 10 0 0 1))⟩ := by
    refine Or.inr ⟨?_, Or.inl ⟨rfl, Or.inl hU⟩⟩
    rintro ⟨e, h1, h2⟩
    rw [he] at h1; revert e; decide +kernel
  obtain ⟨_, h5⟩ := h3 (by
    rintro (⟨e, h1, h2⟩ | ⟨e, h1, h2⟩)
    · have h1 : e ∈ entriesFor noFnm exEntries (str "a.com") := h1
      rw [he] at h1; revert e; decide +kernel
    · simp [entriesFor] at h1) exEntries (Or.inl ⟨rfl, answers_not_silent hA⟩)
  obtain ⟨r, r1, _, r3⟩ := h5 _ _ qMsg _ [str "a", str "com"] hA (.v4 _ _ (by decide)) rfl qMsg_valid rfl rfl rfl
    (by decide) (by decide +kernel) (by rw [List.length_replicate]; omega)
  exact ⟨c, hc, r, r1, r3 true⟩

/-- The same by computation. -/
example : (exCont.bind (fun c => hostsGet noFnm (fun _ => Option.none) ⟨some c, Option.none, true⟩ (List.replicate 300 0) true
      qCtx)) =
    some (0, [.reply (.udp 1 7 false ([0x12, 0x34, 0x81, 0xA0, 0, 1, 0, 1, 0, 0, 0, 1] ++ wire [str "a", str "com"] ++ [0, 1, 0, 1] ++
      [0xC0, 12, 0, 1, 0, 1, 0, 0, 0, 60, 0, 4, 10, 0, 0, 1] ++ [0, 0, 41, 5, 0, 0, 0, 0, 0, 0, 0]))]) := by decide +kernel

/-! ### What is not so -/

/-- Full claim: for a query answered by an IPv4 entry, what happens is defined, whatever room is left behind
the query. -/
def AnswerDefined : Prop := ∀ (lines : List (List Byte)) (es : List Entry) (c : Cont) (behind : List Byte) (m : Ctx Nat) (e : Entry),
  Lines lines es → loadAll initCont lines = some c → AnswersBy noFnm es m.domain m.type e → (∃ q : Message.Msg, q.Valid ∧ m.entity = q.bytes) →
  (tryOne noFnm (fun _ => Option.none) c behind m).isSome = true

/-- The code violates it: the query is copied behind itself without a check of the room left there (the
buffer holds 4096 bytes in all and queries of more than half of it are received). -/
theorem reply_overflow : ¬ AnswerDefined := by
  intro h
  obtain ⟨c, hc, _⟩ := lines_taken exLines_read
  have he : entriesFor noFnm exEntries (str "a.com") = exEntries.take 2 := by decide +kernel
  have := h _ _ c (List.replicate 20 0) qCtx ⟨str "a.com", .a, .addr (some (Mapped 10 0 0 1))⟩ exLines_read hc
    (Or.inr ⟨by
      rintro ⟨e, h1, h2⟩
      have h1 : e ∈ entriesFor noFnm exEntries (str "a.com") := h1
      rw [he] at h1; revert e; decide +kernel, Or.inl ⟨rfl, Or.inl ⟨rfl, Or.inl (by decide +kernel)⟩⟩⟩) ⟨qMsg, qMsg_valid, rfl⟩
  have e : (exCont.bind (fun c => tryOne noFnm (fun _ => Option.none) c (List.replicate 20 0) qCtx)).isSome = false := by decide +kernel
  unfold exCont at e
  rw [hc] at e
  simp only [Option.bind_some] at e
  rw [e] at this; simp at this

/-- Full claim: an excluded name is never answered from the hosts data. -/
def ExcludedNeverAnswered : Prop := ∀ (s : Hosts) (es ed : List Entry) (behind : List Byte) (m : Ctx Nat),
  LoadedOpt s.static es → LoadedOpt s.dynamic ed → Excluded noFnm es ed m.domain →
  ∀ n o, hostsGet noFnm (fun _ => Option.none) s behind true m = some (n, o) → o = []

def exclLines : List (List Byte) := [str "@@ a.com", str "10.0.0.1 a.com"]
def exclEntries : List Entry := [⟨str "a.com", .excluded, .nothing⟩, ⟨str "a.com", .a, .addr (some (Mapped 10 0 0 1))⟩]

theorem exclLines_read : Lines exclLines exclEntries := by
  refine .cons (e := ⟨str "a.com", .excluded, _⟩) ?_ (.cons (e := ⟨str "a.com", .a, _⟩) ?_ .nil)
  · exact ⟨str "@@", exLine [] [32] [] (exWord (by decide)) (exWord (by decide)) (by decide), .excluded⟩
  · exact ⟨str "10.0.0.1", exLine [] [32] [] (exWord (by decide)) (exWord (by decide)) (by decide),
      .v4 (exV4 48 49 0 1 (by decide) (by decide)) (by decide) (by decide) (by decide) (by decide)⟩

/-- The code violates it: with BlockIpv6WhenIpv4Exists, an AAAA query for an excluded name that also has an
IPv4 entry is refused. -/
theorem excluded_never_answered_false : ¬ ExcludedNeverAnswered := by
  intro h
  obtain ⟨c, hc, _⟩ := lines_taken exclLines_read
  have hl : Loaded c exclEntries := ⟨_, exclLines_read, hc⟩
  have hx : Excluded noFnm exclEntries [] (str "a.com") := Or.inl ⟨⟨str "a.com", .excluded, .nothing⟩, by decide +kernel, rfl⟩
  have hr := (hosts_override_partial (s := ⟨some c, Option.none, true⟩) (es := exclEntries) (ed := []) hl rfl noFnm
    (fun _ => Option.none) [] { qCtx with type := 28 }).1 ⟨rfl, rfl, Or.inl ⟨⟨str "a.com", .a, .addr (some (Mapped 10 0 0 1))⟩, by
      show _ ∈ entriesFor noFnm exclEntries (str "a.com"); decide +kernel, rfl⟩⟩ true
  have := h ⟨some c, Option.none, true⟩ exclEntries [] [] { qCtx with type := 28 } hl rfl hx _ _ hr
  simp at this

end Verif.Hosts
