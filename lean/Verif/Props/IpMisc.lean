import Verif.Lemmas.IpMisc
import Verif.Props.Parser
import Verif.Props.IpChunk
/-! C29, C56, C57: blocking and substituting addresses. -/

namespace Verif.IpMisc
open Message Parser

/-- The whole function on a well-formed message with a question. -/
theorem process_msg {lists : IpChunk.Chunk} (hl : Ready (IpChunk.find lists)) (bn : Bool) {m : Msg} (hm : m.Valid)
    (hq : m.qs ≠ []) (hs : ∀ r ∈ m.an, Sane r) (post : List Byte) (len : Nat) (hlen : m.bytes.length ≤ len) :
    (bn = true ∧ (m.head.getD 3 0).toNat % 16 ≠ 0 →
      process lists bn (m.bytes ++ post) len = some (.negative, m.bytes ++ post)) ∧
    (¬ (bn = true ∧ (m.head.getD 3 0).toNat % 16 ≠ 0) →
      ((∃ r ∈ m.an, Blocked (IpChunk.find lists) r) →
        ∃ b', process lists bn (m.bytes ++ post) len = some (.filtered, b')) ∧
      ((∀ r ∈ m.an, ¬ Blocked (IpChunk.find lists) r) →
        process lists bn (m.bytes ++ post) len =
          some (.nothing, ({ m with an := m.an.map (replaced (IpChunk.find lists)) } : Msg).bytes ++ post))) := by
  have hq' : 0 < m.qs.length := List.length_pos_iff.mpr hq
  have h12 : m.header.length = 12 := by simp [Msg.header, hm.head, u16_length]
  have hlen12 : 12 ≤ len := by simp [Msg.bytes, h12] at hlen; omega
  have h3 : (m.bytes ++ post)[3]? = some (m.head.getD 3 0) := by
    have : m.bytes ++ post = m.head ++ ((u16 m.qs.length ++ (u16 m.an.length ++ (u16 m.ns.length ++ u16 m.ar.length))) ++ m.body ++ post) := by
      simp [Msg.bytes, Msg.header]
    rw [this, List.getElem?_append_left (by rw [hm.head]; omega)]
    have : m.head[3]? = some (m.head[3]'(by rw [hm.head]; omega)) := List.getElem?_eq_getElem _
    rw [this]
    simp [List.getD_eq_getElem?_getD, this]
  unfold process
  have hio : initOk len = true := by unfold initOk; simpa using hlen12
  rw [if_pos hio, h3, counts_eq hm post]
  dsimp only
  refine ⟨fun h => by rw [if_pos h], fun h => ?_⟩
  rw [if_neg h]
  obtain ⟨it, d, hg, -, hnum, hpos, hnext⟩ := gotoAnswers_msg hm hq post len hlen
  rw [hg]
  dsimp only
  have hall : (Msg.counts m).all = m.qs.length + m.an.length + m.ns.length + m.ar.length := rfl
  have hbytes : m.bytes ++ post = (m.header ++ qBytes m.qs) ++ (rrBytes m.an ++ (rrBytes m.ns ++ rrBytes m.ar ++ post)) := by
    simp [Msg.bytes, Msg.body]
  have hbytes' : ({ m with an := m.an.map (replaced (IpChunk.find lists)) } : Msg).bytes ++ post =
      (m.header ++ qBytes m.qs) ++ (rrBytes (m.an.map (replaced (IpChunk.find lists))) ++ (rrBytes m.ns ++ rrBytes m.ar ++ post)) := by
    simp [Msg.bytes, Msg.body, Msg.header]
  rw [hbytes', hbytes]
  refine loop_answers hl (rrBytes m.ns ++ rrBytes m.ar ++ post) m.an (m.header ++ qBytes m.qs) it (m.qs.length + 1)
    _ (fun r hr => ⟨hm.an r hr, hs r hr⟩) ?_ ?_ (by omega) ?_ (by omega) hpos (by omega) ?_
  · simp [Msg.bytes, Msg.body] at hlen ⊢; omega
  · intro i hi
    rw [purpose_correct _ hq']
    unfold sectionOf
    have e1 : (Msg.counts m).qd = m.qs.length := rfl
    have e2 : (Msg.counts m).an = m.an.length := rfl
    rw [e1, e2, if_neg (by omega), if_neg (by omega), if_pos (by omega)]
  · intro h
    have e1 : (Msg.counts m).qd = m.qs.length := rfl
    have e2 : (Msg.counts m).an = m.an.length := rfl
    have e3 : (Msg.counts m).ns = m.ns.length := rfl
    have e4 : (Msg.counts m).ar = m.ar.length := rfl
    rw [purpose_correct _ hq', e1, e2, e3, e4]
    unfold sectionOf
    rw [if_neg (by omega), if_neg (by omega), if_neg (by omega)]
    cases hns : m.ns with
    | cons r l =>
      refine ⟨rItem .nameServer r, rrBytes l ++ rrBytes m.ar ++ post, rItem_ok (hm.ns r (by simp [hns])) (by simp) (by simp), ?_, by simp [rItem], ?_⟩
      · rw [rItem_bytes, rrBytes_cons]; simp
      · rw [if_pos (by simp; omega)]; rfl
    | nil =>
      cases har : m.ar with
      | nil => rw [hall, hns, har] at h; simp at h; omega
      | cons r l =>
        refine ⟨rItem .additional r, rrBytes l ++ post, rItem_ok (hm.ar r (by simp [har])) (by simp) (by simp), ?_, by simp [rItem], ?_⟩
        · rw [rItem_bytes, rrBytes_cons]; simp [rrBytes]
        · rw [if_neg (by simp), if_pos (by simp; omega)]; rfl
  · intro h b' hb'
    have hl' : (m.header ++ qBytes m.qs).length = 12 + (qBytes m.qs).length := by simp [h12]
    rw [hl'] at hb' ⊢
    exact hnext (by omega) b' hb'

/-- The lists of a configuration: blocked entries, and substituted ones with a replacement for the
family. -/
def WellFormed (es : List IpChunk.Entry) : Prop :=
  (∀ e ∈ es, IpChunk.RangeText e.text e.range) ∧
  es.Pairwise (fun e r => e.range.Single ∨ ¬ IpChunk.Inside e.range r.range) ∧
  ∀ e ∈ es, e.type = 2 → ∃ x, e.data = some x ∧ 8 * x.length = e.range.width

theorem policy_ready {es : List IpChunk.Entry} (h : WellFormed es) : Ready (policy es) := by
  intro a d ha
  unfold policy at ha
  have : ∃ e ∈ es, IpChunk.Covers e.range a ∧ e.type = 2 ∧ e.data = d := by
    rw [Option.map_eq_some_iff] at ha
    obtain ⟨e, he, hee⟩ := ha
    have hmem : e ∈ es ∧ IpChunk.Covers e.range a := by
      rw [Option.or_eq_some_iff] at he
      rcases he with he | ⟨-, he⟩
      · refine ⟨List.mem_of_find?_eq_some he, ?_⟩
        have := List.find?_some he
        simp only [decide_eq_true_eq] at this
        exact this.2
      · refine ⟨List.mem_of_find?_eq_some he, ?_⟩
        simpa using List.find?_some he
    simp only [Prod.mk.injEq] at hee
    exact ⟨e, hmem.1, hmem.2, hee.1, hee.2⟩
  obtain ⟨e, he, hc, ht, hd⟩ := this
  obtain ⟨x, hx, hw⟩ := h.2.2 e he ht
  refine ⟨x, by rw [← hd, hx], ?_⟩
  have := hc.1
  omega

/-- C29 and C56 for a configuration without a range listed behind a narrower one inside it, and
well-formed messages with a question and addresses of the right length: the response is dropped exactly
when the policy blocks one of its addresses; otherwise exactly the addresses to be substituted change. -/
theorem substitution_partial (es : List IpChunk.Entry) (hes : WellFormed es) :
    ∃ c, IpChunk.build .init (es.map IpChunk.Entry.arg) = some c ∧
      ∀ (m : Msg) (post : List Byte) (len : Nat), m.Valid → m.qs ≠ [] → (∀ r ∈ m.an, Sane r) → m.bytes.length ≤ len →
        ((∃ r ∈ m.an, Blocked (policy es) r) → ∃ b', process c false (m.bytes ++ post) len = some (.filtered, b')) ∧
        ((∀ r ∈ m.an, ¬ Blocked (policy es) r) → process c false (m.bytes ++ post) len =
          some (.nothing, ({ m with an := m.an.map (replaced (policy es)) } : Msg).bytes ++ post)) := by
  obtain ⟨c, hc, hf⟩ := IpChunk.lookup_partial es hes.1 hes.2.1
  have hL : IpChunk.find c = policy es := funext hf
  refine ⟨c, hc, ?_⟩
  intro m post len hm hq hs hlen
  have := (process_msg (lists := c) (by rw [hL]; exact policy_ready hes) false hm hq hs post len hlen).2 (by simp)
  rw [hL] at this
  exact this

/-- Only address bytes change: apart from the data of address records of class IN, the message behind
`replaced` is the one before, and no length changes. -/
theorem replaced_only (L : Policy) (h : Ready L) (r : RR) :
    (replaced L r).name = r.name ∧ (replaced L r).type = r.type ∧ (replaced L r).klass = r.klass ∧
    (replaced L r).ttl = r.ttl ∧ (replaced L r).rdata.length = r.rdata.length ∧ (¬ IsAddr r → replaced L r = r) :=
  ⟨(replaced_like h r).name, (replaced_like h r).type, (replaced_like h r).klass, (replaced_like h r).ttl,
    (replaced_like h r).len, fun hn => by unfold replaced; rw [if_neg hn]⟩

/-- With negative answers blocked, a response with an error code is dropped. -/
theorem negative_blocked {lists : IpChunk.Chunk} (hl : Ready (IpChunk.find lists)) {m : Msg} (hm : m.Valid) (hq : m.qs ≠ [])
    (hs : ∀ r ∈ m.an, Sane r) (post : List Byte) (len : Nat) (hlen : m.bytes.length ≤ len)
    (h : (m.head.getD 3 0).toNat % 16 ≠ 0) :
    process lists true (m.bytes ++ post) len = some (.negative, m.bytes ++ post) :=
  (process_msg hl true hm hq hs post len hlen).1 ⟨rfl, h⟩

/-! ### The full claims -/

/-- C29, the full claim: it holds for every well-formed message, whatever the data lengths. -/
def Exact : Prop := ∀ (lines : List Line) (c : IpChunk.Chunk) (m : Msg) (b' : List Byte), load .init lines = some c →
  m.Valid → m.qs ≠ [] → process c false m.bytes m.bytes.length = some (.nothing, b') →
  b' = ({ m with an := m.an.map (replaced (IpChunk.find c)) } : Msg).bytes

/-- An empty address record in front of a proper one. -/
def exShort : Msg := ⟨[0, 7, 0x81, 0x80], [⟨[0], 1, 1⟩], [⟨[0], 1, 1, 60, []⟩, ⟨[0], 1, 1, 60, [1, 2, 3, 4]⟩], [], []⟩

/-- C29 is false of the code: the address of an empty record is taken from the bytes of the next
record, and these are overwritten. -/
theorem exact_false : ¬ Exact := by
  intro h
  have hl : (load .init [.subst (str "0.0.1.0") (str "0.0.5.0")]).isSome = true := by decide +kernel
  obtain ⟨c, hc⟩ := Option.isSome_iff_exists.1 hl
  have hp : (load .init [.subst (str "0.0.1.0") (str "0.0.5.0")]).bind
      (fun c => process c false exShort.bytes exShort.bytes.length) =
      some (.nothing, exShort.header ++ qBytes exShort.qs ++ [0, 0, 1, 0, 1, 0, 0, 0, 60, 0, 0, 0, 0, 5, 0, 1, 0, 0, 0, 60, 0, 4, 1, 2, 3, 4]) := by
    decide +kernel
  have hr : (load .init [.subst (str "0.0.1.0") (str "0.0.5.0")]).map
      (fun c => ({ exShort with an := exShort.an.map (replaced (IpChunk.find c)) } : Msg).bytes) = some exShort.bytes := by
    decide +kernel
  rw [hc] at hp hr
  simp only [Option.bind_some] at hp
  have hv : exShort.Valid := by
    refine ⟨rfl, ?_, ?_, by simp [exShort], by simp [exShort], by simp [exShort], by simp [exShort], by simp [exShort], by simp [exShort]⟩
    · intro q hq
      simp [exShort] at hq
      subst hq
      exact ⟨.root, by simp, by simp, by simp, by simp⟩
    · intro r hr
      simp [exShort] at hr
      rcases hr with rfl | rfl
      · exact ⟨.root, by simp, by simp, by simp, by simp⟩
      · exact ⟨.root, by simp, by simp, by simp, by simp⟩
  have := h _ c exShort _ hc hv (by simp [exShort]) hp
  simp only [Option.map_some, Option.some.injEq] at hr
  rw [hr] at this
  revert this
  decide +kernel

/-- C56, the full claim: a response with a blocked address is not passed on. -/
def NeverPassed : Prop := ∀ (lines : List Line) (c : IpChunk.Chunk) (m : Msg), load .init lines = some c →
  m.Valid → (∃ r ∈ m.an, Blocked (IpChunk.find c) r) →
  ∀ v b', process c false m.bytes m.bytes.length = some (v, b') → v ≠ .nothing

/-- An answer without a question. -/
def exNoQuestion : Msg := ⟨[0, 7, 0x81, 0x80], [], [⟨[0], 1, 1, 60, [1, 2, 3, 4]⟩], [], []⟩

/-- C56 is false of the code: in a message without question no answers are found. -/
theorem never_passed_false : ¬ NeverPassed := by
  intro h
  have hl : (load .init [.block (str "1.2.3.4")]).isSome = true := by decide +kernel
  obtain ⟨c, hc⟩ := Option.isSome_iff_exists.1 hl
  have hp : (load .init [.block (str "1.2.3.4")]).bind (fun c => process c false exNoQuestion.bytes exNoQuestion.bytes.length) =
      some (.nothing, exNoQuestion.bytes) := by decide +kernel
  have hf : (load .init [.block (str "1.2.3.4")]).map (fun c => IpChunk.find c [1, 2, 3, 4]) = some (some (1, none)) := by
    decide +kernel
  rw [hc] at hp hf
  simp only [Option.bind_some] at hp
  simp only [Option.map_some, Option.some.injEq] at hf
  have hv : exNoQuestion.Valid := by
    refine ⟨rfl, by simp [exNoQuestion], ?_, by simp [exNoQuestion], by simp [exNoQuestion], by simp [exNoQuestion], by simp [exNoQuestion], by simp [exNoQuestion], by simp [exNoQuestion]⟩
    intro r hr
    simp [exNoQuestion] at hr
    subst hr
    exact ⟨.root, by simp, by simp, by simp, by simp⟩
  exact h _ c exNoQuestion hc hv ⟨⟨[0], 1, 1, 60, [1, 2, 3, 4]⟩, by simp [exNoQuestion], ⟨rfl, .inl ⟨rfl, rfl⟩⟩, none, hf⟩ _ _ hp rfl

/-- C56 for messages with a question (and addresses of the right length), whatever the list. -/
theorem never_passed_partial (c : IpChunk.Chunk) (hc : Ready (IpChunk.find c)) (m : Msg) (hm : m.Valid) (hq : m.qs ≠ [])
    (hs : ∀ r ∈ m.an, Sane r) (hB : ∃ r ∈ m.an, Blocked (IpChunk.find c) r) (bn : Bool) (post : List Byte) :
    ∃ v b', process c bn (m.bytes ++ post) m.bytes.length = some (v, b') ∧ v ≠ .nothing := by
  have := process_msg hc bn hm hq hs post m.bytes.length (Nat.le_refl _)
  by_cases h : bn = true ∧ (m.head.getD 3 0).toNat % 16 ≠ 0
  · exact ⟨_, _, this.1 h, by simp⟩
  · obtain ⟨b', hb⟩ := (this.2 h).1 hB
    exact ⟨_, _, hb, by simp⟩

/-! ### What loading a configuration yields -/

theorem v4_len {s d : List Byte} {n : Int} (h : IpText.v4ToNum s = .ret n (some d)) : d.length = 4 := by
  unfold IpText.v4ToNum at h
  split at h
  · simp at h
  · split at h
    · simp at h; rw [← h.2]; simp; assumption
    · simp at h

theorem ungroups_len (l : List Nat) : (IpText.ungroups l).length = 2 * l.length := by
  induction l with
  | nil => rfl
  | cons v r ih => simp [IpText.ungroups, ih]; omega

theorem front_len (t : List Byte) : ∀ (buf : List Nat) (itr : List Byte) (st : Bool), buf.length ≤ 8 →
    (∀ n d, IpText.front buf itr st t = .inl (.ret n (some d)) → d.length = 16) ∧
    (∀ g, IpText.front buf itr st t = .inr g → g.length ≤ 8) := by
  induction t with
  | nil =>
    intro buf itr st h
    refine ⟨fun n d hf => ?_, fun g hf => ?_⟩
    · rw [IpText.front] at hf
      simp at hf
      rw [← hf.2, ungroups_len]; simp; omega
    · rw [IpText.front] at hf; simp at hf
  | cons c r ih =>
    intro buf itr st h
    rw [IpText.front]
    split
    · split
      · refine ⟨by simp, ?_⟩
        intro g hg; simp at hg; subst hg; exact h
      · split
        · split
          · exact ih _ _ _ (by simp; omega)
          · simp
        · simp
    · exact ih _ _ _ h

theorem back_len (t : List Byte) : ∀ (buf : List Nat) (k : Nat) (tail : List Byte), buf.length = 8 →
    ∀ n d, IpText.back buf k tail t = .ret n (some d) → d.length = 16 := by
  induction t with
  | nil => intro buf k tail _ n d h; simp [IpText.back] at h
  | cons c r ih =>
    intro buf k tail hb n d h
    rw [IpText.back.eq_def] at h
    dsimp only at h
    split at h
    · split at h
      · simp at h; rw [← h.2, ungroups_len]; omega
      · split at h
        · split at h
          · split at h
            · simp at h
            · split at h
              · simp at h; rw [← h.2, ungroups_len]; simp; omega
              · exact ih _ _ _ (by simpa using hb) _ _ h
          · simp at h
        · simp at h
    · exact ih _ _ _ hb _ _ h

theorem v6_len {s d : List Byte} {n : Int} (h : IpText.v6ToNum s = .ret n (some d)) : d.length = 16 := by
  unfold IpText.v6ToNum at h
  dsimp only at h
  split at h
  · split at h
    · simp at h
    · split at h
      · simp at h; rw [← h.2, ungroups_len]; simp; omega
      · simp at h
  · split at h
    · simp at h; rw [← h.2]; simp
    · have hfl := front_len (IpText.skipSpace s) [] (IpText.skipSpace s) true (by simp)
      split at h
      · rename_i o ho
        exact hfl.1 n d (by rw [ho, h])
      · rename_i g hg
        have := hfl.2 g hg
        exact back_len _ _ _ _ (by simp; omega) _ _ h

/-- What every element of the lists satisfies. -/
def Stored (e : IpChunk.Elem) : Prop :=
  e.type = 2 → ∃ x, e.data = some x ∧ 4 ≤ x.length ∧ (e.set.ip.bitLength = 128 → 16 ≤ x.length)

def AllStored (c : IpChunk.Chunk) : Prop :=
  (∀ e ∈ c.addrs.root.toList, Stored e.2) ∧ ∀ e ∈ c.cidrs.root.toList, Stored e.2

theorem add_stored {c c' : IpChunk.Chunk} {ip : List Byte} {t : Nat} {d : Option (List Byte)} {ok : Bool}
    (h : AllStored c) (ha : IpChunk.add c ip t d = some (ok, c'))
    (hs : ∀ s, IpChunk.parseSet (ip.takeWhile (· != 47)) ((ip.dropWhile (· != 47)).drop 1) = .ok s → Stored ⟨s, t, d⟩) :
    AllStored c' := by
  have key : ∀ (st : Bst.State IpChunk.Elem) (x : IpChunk.Elem), (∀ e ∈ st.root.toList, Stored e.2) → Stored x →
      ∀ e ∈ (st.add IpChunk.contain x).2.root.toList, Stored e.2 := by
    intro st x h1 h2 e he
    have hp := Bst.add_values IpChunk.contain st x
    have := hp.mem_iff.1 (List.mem_map.2 ⟨e, he, rfl⟩)
    rcases List.mem_cons.1 this with hh | hh
    · rw [hh]; exact h2
    · obtain ⟨y, hy, hye⟩ := List.mem_map.1 hh
      rw [← hye]; exact h1 y hy
  unfold IpChunk.add at ha
  split at ha
  · simp at ha
  · simp at ha; rw [← ha.2]; exact h
  · rename_i s hsp
    split at ha <;> (simp at ha; rw [← ha.2])
    · exact ⟨key _ _ h.1 (hs _ hsp), h.2⟩
    · exact ⟨h.1, key _ _ h.2 (hs _ hsp)⟩

theorem parse_v4 {s p : List Byte} {st : IpChunk.Set} (h58 : (58 : Byte) ∉ s) (h : IpChunk.parseSet s p = .ok st) :
    st.ip.bitLength = 32 := by
  have ha : ∀ a, IpChunk.parseAddr s = .ok a → a.zone = .v4 := by
    intro a h
    unfold IpChunk.parseAddr at h
    split at h
    · simp at h
    · rename_i c hc
      have hc' := List.find?_some hc
      have hm := List.mem_of_find?_eq_some hc
      have : c = 46 := by
        simp at hc'
        rcases hc' with hc' | hc'
        · exact hc'
        · subst hc'; exact absurd hm h58
      rw [if_pos this] at h
      split at h
      · simp at h
      · split at h
        · split at h
          · simp at h; rw [← h]
          · simp at h
        · simp at h
  unfold IpChunk.parseSet at h
  split at h
  · simp at h
  · simp at h
  · rename_i a haa
    have hz := ha a haa
    split at h
    · simp at h; rw [← h]; simp [IpChunk.Addr.bitLength, hz]
    · split at h
      · simp at h
      · simp at h; rw [← h]; simp [IpChunk.Addr.bitLength, IpChunk.Addr.is6, hz]

theorem load_stored (lines : List Line) : ∀ (c c' : IpChunk.Chunk), AllStored c → load c lines = some c' → AllStored c' := by
  induction lines with
  | nil => intro c c' h hl; simp [load] at hl; rw [← hl]; exact h
  | cons l ls ih =>
    intro c c' h hl
    cases l with
    | block ip =>
      rw [load, Option.bind_eq_some_iff] at hl
      obtain ⟨c1, h1, h2⟩ := hl
      unfold addBlock at h1
      rw [Option.map_eq_some_iff] at h1
      obtain ⟨⟨ok, c2⟩, h1, rfl⟩ := h1
      exact ih _ _ (add_stored h h1 (fun s _ ht => by simp [typeBlock] at ht)) h2
    | subst ip sub =>
      rw [load, Option.bind_eq_some_iff] at hl
      obtain ⟨c1, h1, h2⟩ := hl
      unfold addSubstitute at h1
      split at h1
      · simp at h1
      · simp at h1
      · rename_i n d hd
        rw [Option.map_eq_some_iff] at h1
        obtain ⟨⟨ok, c2⟩, h1, rfl⟩ := h1
        refine ih _ _ (add_stored h h1 (fun s hs _ => ⟨d, rfl, ?_⟩)) h2
        dsimp only
        split at hd
        · rw [v6_len hd]; omega
        · rename_i h58
          have : s.ip.bitLength = 32 := parse_v4 (fun hx => h58 ((List.takeWhile_sublist _).subset hx)) hs
          rw [v4_len hd]; omega

/-- Every configuration that loads (with defined contents) has replacements that fit, so that the
theorems above apply to it. -/
theorem loaded_ready (lines : List Line) (c : IpChunk.Chunk) (h : load .init lines = some c) :
    Ready (IpChunk.find c) := by
  have hst := load_stored lines .init c ⟨by simp [IpChunk.Chunk.init, Bst.State.init, Bst.Tree.toList],
    by simp [IpChunk.Chunk.init, Bst.State.init, Bst.Tree.toList]⟩ h
  intro a d hf
  have fits : ∀ (k : IpChunk.Elem) (x : IpChunk.Elem) (rk : IpChunk.Range), IpChunk.KeyOf k a rk → IpChunk.contain k x = 0 →
      Stored x → x.type = 2 → x.data = d → ∃ y, d = some y ∧ a.length ≤ y.length := by
    intro k x rk hk hc hx ht hd
    obtain ⟨y, hy, h4, h16⟩ := hx ht
    refine ⟨y, by rw [← hd, hy], ?_⟩
    have hb := hk.is.bitLength
    have hlen := hk.len
    unfold IpChunk.contain at hc
    split at hc
    · simp at hc
    · split at hc
      · omega
      · rename_i hne
        unfold IpChunk.Range.width at hb hlen
        grind
  rcases IpChunk.find_cases c a with ⟨k, rk, hk, he⟩ | ⟨he, -⟩
  · rw [hf] at he
    have he := he.symm
    rw [Option.map_eq_some_iff] at he
    obtain ⟨x, hx, hxe⟩ := he
    simp only [Prod.mk.injEq] at hxe
    rw [Option.or_eq_some_iff] at hx
    rcases hx with hx | ⟨-, hx⟩
    · rw [Option.map_eq_some_iff] at hx
      obtain ⟨y, hy, rfl⟩ := hx
      have := Bst.Tree.search_some hy
      exact fits k y.2 rk hk this.2 (hst.1 y this.1) hxe.1 hxe.2
    · rw [Option.map_eq_some_iff] at hx
      obtain ⟨y, hy, rfl⟩ := hx
      have := Bst.Tree.search_some hy
      exact fits k y.2 rk hk this.2 (hst.2 y this.1) hxe.1 hxe.2
  · rw [hf] at he; simp at he

/-- C57, the full claim: whatever the texts of a configuration are, loading it has a defined result. -/
def LoadDefined : Prop := ∀ ip sub : List Byte, (load .init [.subst ip sub]).isSome

/-- C57 is false of the code: a replacement that is not an address leaves its bytes undetermined. -/
theorem load_defined_false : ¬ LoadDefined := by
  intro h
  have := h (str "1.2.3.4") (str "oops")
  revert this
  decide +kernel

/-- The text of an address of a family, `::` excepted. -/
def AddrText (six : Bool) (s : List Byte) : Prop :=
  if six then (∃ vs, IpText.V6Text s vs) ∧ s ≠ [58, 58]
  else ∃ a b c d, IpText.V4Text s a b c d ∧ a ≤ 255 ∧ b ≤ 255 ∧ c ≤ 255 ∧ d ≤ 255

/-- A line with proper texts; the replacement is of the same family. -/
def Line.Proper : Line → Prop
  | .block ip => ∃ r, IpChunk.RangeText ip r
  | .subst ip sub => ∃ r : IpChunk.Range, IpChunk.RangeText ip r ∧ AddrText r.six sub

theorem colon_six {ip : List Byte} {r : IpChunk.Range} (h : IpChunk.RangeText ip r) : (58 : Byte) ∈ ip ↔ r.six = true := by
  have hd : ∀ {t : List Byte} {n : Nat}, IpText.DecNum t n → (58 : Byte) ∉ t := by
    intro t n ht hx
    induction ht with
    | one hd =>
      simp at hx; subst hx
      have := IpText.decVal_of hd
      simp [show IpText.decVal 58 = none by decide] at this
    | more _ hd ih =>
      simp only [List.mem_append, List.mem_singleton] at hx
      rcases hx with hx | rfl
      · exact ih hx
      · have := IpText.decVal_of hd
        simp [show IpText.decVal 58 = none by decide] at this
  cases h with
  | v4 h => simp; exact fun hx => (IpChunk.dec_not _ ((IpChunk.v4_chars h).1 _ hx)).2 rfl
  | v4net h _ _ _ _ ht =>
    simp
    exact ⟨fun hx => (IpChunk.dec_not _ ((IpChunk.v4_chars h).1 _ hx)).2 rfl, hd ht⟩
  | v6 h => simp [(IpChunk.v6_chars h).2]
  | v6net h => simp [(IpChunk.v6_chars h).2]

/-- C57 for proper texts: loading has a defined result. -/
theorem load_defined_partial (lines : List Line) (h : ∀ l ∈ lines, l.Proper) (c : IpChunk.Chunk) :
    ∃ c', load c lines = some c' := by
  have hadd : ∀ (c : IpChunk.Chunk) (ip : List Byte) (r : IpChunk.Range) (t : Nat) (d : Option (List Byte)),
      IpChunk.RangeText ip r → ∃ ok c', IpChunk.add c ip t d = some (ok, c') := by
    intro c ip r t d hr
    obtain ⟨st, hst, -⟩ := IpChunk.parse_text hr
    unfold IpChunk.add
    rw [hst]
    dsimp only
    split <;> exact ⟨_, _, rfl⟩
  induction lines generalizing c with
  | nil => exact ⟨c, rfl⟩
  | cons l ls ih =>
    have ih := fun c => ih (fun x hx => h x (by simp [hx])) c
    have hl := h l (by simp)
    cases l with
    | block ip =>
      obtain ⟨r, hr⟩ := hl
      obtain ⟨ok, c', hc'⟩ := hadd c ip r typeBlock none hr
      rw [load]
      unfold addBlock
      rw [hc']
      exact ih c'
    | subst ip sub =>
      obtain ⟨r, hr, hsub⟩ := hl
      have : ∃ n d, (if (58 : Byte) ∈ ip then IpText.v6ToNum sub else IpText.v4ToNum sub) = .ret n (some d) := by
        unfold AddrText at hsub
        by_cases h6 : r.six = true
        · rw [if_pos h6] at hsub
          rw [if_pos ((colon_six hr).2 h6)]
          obtain ⟨⟨vs, hv⟩, hne⟩ := hsub
          obtain ⟨a, ha, -⟩ := IpText.v6_accepts_partial hv hne
          exact ⟨_, _, ha⟩
        · rw [if_neg h6] at hsub
          rw [if_neg (fun hx => h6 ((colon_six hr).1 hx))]
          obtain ⟨a, b, c, d, hv, h1, h2, h3, h4⟩ := hsub
          obtain ⟨w, x, y, z, hw, -⟩ := IpText.v4_parse hv [] h1 h2 h3 h4 (by simp)
          rw [List.append_nil] at hw
          exact ⟨_, _, hw⟩
      obtain ⟨n, d, hd⟩ := this
      obtain ⟨ok, c', hc'⟩ := hadd c ip r typeSubstitute (some d) hr
      rw [load]
      unfold addSubstitute
      rw [hd]
      dsimp only
      rw [hc']
      exact ih c'

/-! ### Examples -/

/-- A response with two addresses, an alias and an authority record. -/
def exMsg : Msg := ⟨[0, 7, 0x81, 0x80], [⟨[1, 97, 0], 1, 1⟩],
  [⟨[192, 12], 5, 1, 60, [1, 98, 0]⟩, ⟨[1, 98, 0], 1, 1, 60, [10, 0, 0, 1]⟩, ⟨[1, 98, 0], 1, 1, 60, [10, 0, 0, 2]⟩],
  [⟨[0], 2, 1, 60, [0]⟩], [⟨[0], 1, 1, 60, [10, 0, 0, 1]⟩]⟩

/-- Only the answer changes, not the additional record with the same address. -/
example : (load .init [.block (str "11.0.0.0/8"), .subst (str "10.0.0.1") (str "127.0.0.1")]).bind
    (fun c => process c false exMsg.bytes exMsg.bytes.length) =
    some (.nothing, ({ exMsg with an := [⟨[192, 12], 5, 1, 60, [1, 98, 0]⟩, ⟨[1, 98, 0], 1, 1, 60, [127, 0, 0, 1]⟩,
      ⟨[1, 98, 0], 1, 1, 60, [10, 0, 0, 2]⟩] } : Msg).bytes) := by decide +kernel
example : ((load .init [.block (str "10.0.0.2/31"), .subst (str "10.0.0.1") (str "127.0.0.1")]).bind
    (fun c => process c false exMsg.bytes exMsg.bytes.length)).map (·.1) = some .filtered := by decide +kernel

/-- The hypotheses of the theorems above are met by this message. -/
theorem exMsg_valid : exMsg.Valid := by
  refine ⟨rfl, ?_, ?_, ?_, ?_, by simp [exMsg], by simp [exMsg], by simp [exMsg], by simp [exMsg]⟩
  · intro q hq
    simp [exMsg] at hq
    subst hq
    exact ⟨.label [97] [0] (by simp) (by simp) .root, by simp, by simp, by simp, by simp⟩
  · intro r hr
    simp [exMsg] at hr
    rcases hr with rfl | rfl | rfl
    · exact ⟨.pointer 192 12 (by decide), by simp, by simp, by simp, by simp⟩
    · exact ⟨.label [98] [0] (by simp) (by simp) .root, by simp, by simp, by simp, by simp⟩
    · exact ⟨.label [98] [0] (by simp) (by simp) .root, by simp, by simp, by simp, by simp⟩
  · intro r hr
    simp [exMsg] at hr
    subst hr
    exact ⟨.root, by simp, by simp, by simp, by simp⟩
  · intro r hr
    simp [exMsg] at hr
    subst hr
    exact ⟨.root, by simp, by simp, by simp, by simp⟩
example : exMsg.qs ≠ [] ∧ ∀ r ∈ exMsg.an, Sane r := by decide +kernel

/-- So is the hypothesis on configurations, by one with nested ranges. -/
example : WellFormed [IpChunk.outer, IpChunk.inner] := by
  refine ⟨?_, by decide +kernel, ?_⟩
  · intro e he
    simp only [List.mem_cons, List.not_mem_nil, or_false] at he
    rcases he with rfl | rfl
    · exact IpChunk.outer_text
    · exact IpChunk.inner_text
  · intro e he
    simp only [List.mem_cons, List.not_mem_nil, or_false] at he
    rcases he with rfl | rfl <;> simp [IpChunk.outer, IpChunk.inner]

end Verif.IpMisc
