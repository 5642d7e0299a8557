import Verif.Spec.OwnQuery
import Verif.Props.EndToEndAll
/-! C125: what becomes of a query depends on this query. -/

namespace Verif.Forwarder
open Msg Message Name Pipeline MContext HostsLoop

variable {Addr : Type}

theorem decide_same {e : Env} {c1 c2 : Cache.St} (h : e.cacheOn = true → c1 = c2) (x : Luck) (behind : List Byte) (t : Bool) (m : Head Addr) :
    Pipeline.decide e c1 x behind t m = Pipeline.decide e c2 x behind t m := by
  cases hc : e.cacheOn with
  | true => rw [h hc]
  | false => unfold Pipeline.decide; simp [hc]

theorem zip_set {α β : Type} {f : α → α → List β} (hf : ∀ a, f a a = []) {l : List α} {i : Nat} {a b : α} (hi : l[i]? = some b) :
    List.zipWith f (l.set i a) l = (List.replicate l.length []).set i (f a b) := by
  refine List.ext_getElem (by simp) fun k h1 h2 => ?_
  simp at h1
  by_cases hk : i = k
  · subst hk
    have : l[i] = b := by rw [List.getElem?_eq_getElem h1] at hi; exact Option.some.inj hi
    simp [this]
  · simp [hk, hf]

theorem zip_self {α β : Type} {f : α → α → List β} (hf : ∀ a, f a a = []) (l : List α) : List.zipWith f l l = List.replicate l.length [] := by
  refine List.ext_getElem (by simp) fun k h1 h2 => ?_
  simp [hf]

/-- The way of one message with the same header. -/
theorem mgrSend_same {e : Env} {st1 st2 s1 s2 : St Addr} (h : SameSetting e st1 st2) {x : Luck} {b : List Byte} {m h1 h2 : Head Addr} {a1 a2 : List (Act Addr)}
    (e1 : mgrSend e st1 x b m = some (s1, h1, a1)) (e2 : mgrSend e st2 x b m = some (s2, h2, a2)) : h1 = h2 ∧ caused st1 s1 a1 = caused st2 s2 a2 := by
  obtain ⟨hk, hc⟩ := h
  have hlen : (st1.mods.drop st1.base).length = (st2.mods.drop st2.base).length := by
    have := congrArg List.length hk; rwa [List.length_map, List.length_map] at this
  have hcl : ∀ (k : Nat) (l : List (Sent (Dest Addr))) (m : Head Addr), (posts m l).1.map (Act.from k) = (posts m l).1 := by
    intro k l m
    rw [show (posts m l).1.map (Act.from k) = (posts m l).1.map id from List.map_congr_left fun a ha => ?_, List.map_id]
    unfold posts at ha
    obtain ⟨s, _, hs⟩ := List.mem_flatMap.1 ha
    unfold post at hs
    split at hs <;> simp at hs <;> subst hs <;> rfl
  have hz : ∀ st : St Addr, List.zipWith (fun d' d : Module (Dest Addr) => d'.inbox.drop d.inbox.length) (st.mods.drop st.base) (st.mods.drop st.base) =
      List.replicate (st.mods.drop st.base).length [] := fun st => zip_self (by simp) _
  unfold mgrSend at e1 e2
  rw [decide_same hc] at e1
  cases hd : Pipeline.decide e st2.cache x (b.drop m.entity.length) (requestTcp m) m with
  | none => rw [hd] at e1; cases e1
  | some o =>
    rw [hd] at e1 e2
    cases o with
    | refused o => cases e1; cases e2; simp only [caused, hcl, hz, hlen, List.drop_length, and_self]
    | cache o => cases e1; cases e2; simp only [caused, hcl, hz, hlen, List.drop_length, and_self]
    | hosts o => cases e1; cases e2; simp only [caused, hcl, hz, hlen, List.drop_left', and_self]
    | nowhere => cases e1; cases e2; simp only [caused, hz, hlen, List.drop_length, List.map_nil, and_self]
    | upstream i =>
      dsimp only at e1 e2
      cases hm1 : st1.mods[st1.base + i]? with
      | none => rw [hm1] at e1; cases e1
      | some d1 =>
        cases hm2 : st2.mods[st2.base + i]? with
        | none => rw [hm2] at e2; cases e2
        | some d2 =>
          rw [hm1] at e1
          rw [hm2] at e2
          dsimp only at e1 e2
          have g1 : (st1.mods.drop st1.base)[i]? = some d1 := by rw [List.getElem?_drop]; exact hm1
          have g2 : (st2.mods.drop st2.base)[i]? = some d2 := by rw [List.getElem?_drop]; exact hm2
          have hp : d1.proto = d2.proto := by
            have := congrArg (fun l => l[i]?) hk
            simp only [List.getElem?_map, g1, g2, Option.map_some, Option.some.injEq] at this
            exact this
          have hzs : ∀ (st : St Addr) (d d' : Module (Dest Addr)), (st.mods.drop st.base)[i]? = some d →
              List.zipWith (fun d' d : Module (Dest Addr) => d'.inbox.drop d.inbox.length) ((st.mods.set (st.base + i) d').drop st.base) (st.mods.drop st.base) =
              (List.replicate (st.mods.drop st.base).length []).set i (d'.inbox.drop d.inbox.length) := by
            intro st d d' hd
            rw [List.drop_set, if_neg (by omega), show st.base + i - st.base = i by omega]
            exact zip_set (f := fun d' d : Module (Dest Addr) => d'.inbox.drop d.inbox.length) (by simp) hd
          rw [hp] at e1
          cases hpr : d2.proto with
          | udp =>
            rw [hpr] at e1 e2
            dsimp only at e1 e2
            unfold udpSend at e1 e2
            cases ha : addFakeEdns e.ap b.length 4 m with
            | none => rw [ha] at e1; cases e1
            | some m' =>
              rw [ha] at e1 e2
              cases e1; cases e2
              refine ⟨rfl, ?_⟩
              unfold caused
              dsimp only
              rw [hzs _ _ _ g1, hzs _ _ _ g2, hlen]
              cases x.sendOk <;> simp [Act.from]
          | tcp =>
            rw [hpr] at e1 e2
            cases e1; cases e2
            refine ⟨rfl, ?_⟩
            unfold caused
            dsimp only
            rw [hzs _ _ _ g1, hzs _ _ _ g2, hlen]
            unfold tcpSend
            cases x.sendOk <;> simp

/-- What the header says of such a query does not depend on what it said before. -/
theorem fill_same {q : Message.Msg} {names : List (List (List Byte))} {ls : List (List Byte)} {post : List Byte} (hq : EndToEnd.Asks q names ls post)
    {h1 h2 m1 m2 : Head Addr} {back : Option (Dest Addr)} {sock fuel : Nat} {agent : List Byte} {c1 c2 : Int}
    (e1 : fill h1 false (q.bytes ++ post) q.bytes.length back sock agent fuel = some (c1, m1))
    (e2 : fill h2 false (q.bytes ++ post) q.bytes.length back sock agent fuel = some (c2, m2)) : m1 = m2 := by
  obtain ⟨y, more, hy1, -⟩ := hq.first
  obtain ⟨f0, hf⟩ := fill_every (Addr := Dest Addr) q names post hq.valid (by simp [hy1]) hq.named hq.short false back sock agent
  have u1 := fill_fuel (Nat.le_max_left fuel f0) e1
  have u2 := fill_fuel (Nat.le_max_left fuel f0) e2
  obtain ⟨d, t, g1, g2⟩ := (hf _ (Nat.le_max_right fuel f0) h1).1 hq.class_in
  obtain ⟨d', t', k1, k2⟩ := (hf _ (Nat.le_max_right fuel f0) h2).1 hq.class_in
  rw [g1] at k1
  cases k1
  rw [g2] at u1
  rw [k2] at u2
  cases u1; cases u2
  rfl

/-- C125, proved part.  The same query (well-formed, any number of questions of class IN) comes from the same client in two states of the program, with the same
groups in force and, if the cache is used, the same in the cache; all else – what was asked before and by whom, what waits for an answer – may be
different.  Then what is sent and what is handed to the workers is the same.

Missing: queries with questions of other classes and messages the parser of headers rejects, where it is false of the code (`own_query_false`). -/
theorem own_query_partial {e : Env} {st1 st2 s1 s2 : St Addr} (h : SameSetting e st1 st2) {c : Client Addr} {q : Message.Msg} {names : List (List (List Byte))}
    {ls : List (List Byte)} {post agent : List Byte} {x : Luck} (hq : EndToEnd.Asks q names ls post) {a1 a2 : List (Act Addr)}
    (e1 : step e st1 (EndToEnd.asking c q post agent x) = some (s1, a1)) (e2 : step e st2 (EndToEnd.asking c q post agent x) = some (s2, a2)) :
    caused st1 s1 a1 = caused st2 s2 a2 := by
  obtain ⟨c1, c2⟩ := c
  cases c1 with
  | none =>
    unfold EndToEnd.asking step at e1 e2
    dsimp only at e1 e2
    split at e1
    · cases e1
    rename_i _ m1 hf1
    split at e1
    · cases e1
    rename_i t1 h1 b1 hm1
    split at e2
    · cases e2
    rename_i _ m2 hf2
    split at e2
    · cases e2
    rename_i t2 h2 b2 hm2
    cases fill_same hq hf1 hf2
    cases e1; cases e2
    exact (mgrSend_same h hm1 hm2).2
  | some a =>
    unfold EndToEnd.asking step at e1 e2
    dsimp only at e1 e2
    split at e1
    · cases e1
    rename_i _ m1 hf1
    split at e1
    · cases e1
    rename_i t1 h1 b1 hm1
    split at e2
    · cases e2
    rename_i _ m2 hf2
    split at e2
    · cases e2
    rename_i t2 h2 b2 hm2
    cases fill_same hq hf1 hf2
    cases e1; cases e2
    exact (mgrSend_same h hm1 hm2).2

/-- The groups in force after a history without reloading. -/
theorem same_setting {e : Env} (hc : e.cacheOn = false) {st st1 st2 : St Addr} {l1 l2 : List (Env × Ev Addr)} {a1 a2 : List (Act Addr)}
    (h1 : run st l1 = some (st1, a1)) (h2 : run st l2 = some (st2, a2)) (n1 : ∀ ev ∈ l1, ∀ ps h, ev.2 ≠ .reload ps h) (n2 : ∀ ev ∈ l2, ∀ ps h, ev.2 ≠ .reload ps h) :
    SameSetting e st1 st2 := by
  obtain ⟨k1, k2⟩ := EndToEnd.run_kindsAll n1 h1
  obtain ⟨k3, k4⟩ := EndToEnd.run_kindsAll n2 h2
  refine ⟨?_, by rw [hc]; simp⟩
  unfold EndToEnd.kinds at k1 k3
  rw [List.map_drop, List.map_drop, k1, k3, k2, k4]

/-- C125, over histories: without a cache, whatever was asked and answered before. -/
theorem own_query_history_partial {e : Env} (hc : e.cacheOn = false) {st st1 st2 s1 s2 : St Addr} {l1 l2 : List (Env × Ev Addr)} {b1 b2 : List (Act Addr)}
    (h1 : run st l1 = some (st1, b1)) (h2 : run st l2 = some (st2, b2)) (n1 : ∀ ev ∈ l1, ∀ ps h, ev.2 ≠ .reload ps h) (n2 : ∀ ev ∈ l2, ∀ ps h, ev.2 ≠ .reload ps h)
    {c : Client Addr} {q : Message.Msg} {names : List (List (List Byte))} {ls : List (List Byte)} {post agent : List Byte} {x : Luck} (hq : EndToEnd.Asks q names ls post)
    {a1 a2 : List (Act Addr)}
    (e1 : step e st1 (EndToEnd.asking c q post agent x) = some (s1, a1)) (e2 : step e st2 (EndToEnd.asking c q post agent x) = some (s2, a2)) :
    caused st1 s1 a1 = caused st2 s2 a2 := own_query_partial (same_setting hc h1 h2 n1 n2) hq e1 e2

/-! ### what is not so -/

/-- The same for all well-formed queries with one question, of any class. -/
def OwnQuery : Prop :=
  ∀ (e : Env) (st1 st2 s1 s2 : St Nat) (c : Client Nat) (q : Message.Msg) (y : Question) (ls : List (List Byte)) (post agent : List Byte) (x : Luck) (a1 a2 : List (Act Nat)),
    SameSetting e st1 st2 → q.Valid → q.qs = [y] → y.name = wire ls → DnsCache.Spec.RfcName ls → q.ar = [] → q.bytes.length + 11 ≤ q.bytes.length + post.length →
    step e st1 (EndToEnd.asking c q post agent x) = some (s1, a1) → step e st2 (EndToEnd.asking c q post agent x) = some (s2, a2) →
    caused st1 s1 a1 = caused st2 s2 a2

/-- A question for the version of the server, of the class CH. -/
def exChaos : Message.Msg := ⟨[3, 4, 1, 0], [⟨wire [str "version", str "bind"], 16, 3⟩], [], [], []⟩

/-- No cache; the hosts data know `ms.com`; type AAAA is disabled. -/
def chaosEnv : Env := { exEnv with cacheOn := false, hosts := ⟨Hosts.loadAll Hosts.initCont [str "10.1.2.3 ms.com"], none, false⟩ }

/-- Client 7 has asked for the name `ls` and the type `t`; now client 8 asks for the version. -/
def chaos (ls : List (List Byte)) (t : Nat) : Option (St Nat × St Nat × List (Act Nat)) :=
  (run exSt [(chaosEnv, both), (chaosEnv, udpAsk 7 (query 1 2 ls t))]).bind fun r =>
    (step chaosEnv r.1 (EndToEnd.asking (some 8, 1) exChaos (List.replicate 200 0) [] exLuck)).map fun s => (r.1, s.1, s.2)

/-- What is sent: client 7, not client 8, is told the address of `ms.com` again, behind the question for the version; or it is refused the version; or
nothing is sent, for client 7's name goes to a TCP group. -/
theorem chaos_sent : (chaos ms 1).map (·.2.2) = some [.client (.udp 1 7 false
      ([3, 4, 129, 128, 0, 1, 0, 1, 0, 0, 0, 0, 7, 118, 101, 114, 115, 105, 111, 110, 4, 98, 105, 110, 100, 0, 0, 16, 0, 3, 0, 0, 0, 0, 0, 0, 0, 0, 0, 0] ++
        [1, 97, 0, 0, 1, 0, 1, 0, 0, 0, 60, 0, 4, 10, 1, 2, 3]))] ∧
    (chaos ms 28).map (·.2.2) = some [.client (.udp 1 7 false
      [3, 4, 129, 128, 0, 1, 0, 0, 0, 0, 0, 0, 7, 118, 101, 114, 115, 105, 111, 110, 4, 98, 105, 110])] ∧
    (chaos org 1).map (·.2.2) = some [] := by decide +kernel

/-- A question of another class is taken for one for the name, and by the client, of the query before. -/
theorem own_query_false : ¬ OwnQuery := by
  intro h
  obtain ⟨h1, h2, -⟩ := chaos_sent
  unfold chaos at h1 h2
  obtain ⟨v1, h1, w1⟩ := Option.map_eq_some_iff.1 h1
  obtain ⟨r1, g1, h1⟩ := Option.bind_eq_some_iff.1 h1
  obtain ⟨s1, k1, rfl⟩ := Option.map_eq_some_iff.1 h1
  obtain ⟨v2, h2, w2⟩ := Option.map_eq_some_iff.1 h2
  obtain ⟨r2, g2, h2⟩ := Option.bind_eq_some_iff.1 h2
  obtain ⟨s2, k2, rfl⟩ := Option.map_eq_some_iff.1 h2
  dsimp only at w1 w2
  have hv : exChaos.Valid := by
    refine ⟨rfl, ?_, by simp [exChaos], by simp [exChaos], by simp [exChaos], by simp [exChaos], by simp [exChaos], by simp [exChaos], by simp [exChaos]⟩
    intro y hy
    simp [exChaos] at hy; subst hy
    exact ⟨.label (str "version") _ (by decide) (by decide) (.label (str "bind") _ (by decide) (by decide) .root), by decide, by decide, by decide, by decide⟩
  obtain ⟨s0, b1, b2, u1, u2⟩ := EndToEnd.run_split (l := [(chaosEnv, both)]) g1
  obtain ⟨s0', b3, b4, u3, u4⟩ := EndToEnd.run_split (l := [(chaosEnv, both)]) g2
  rw [u1] at u3
  cases u3
  have hs : SameSetting chaosEnv r1.1 r2.1 := same_setting rfl u2 u4 (by simp [udpAsk]) (by simp [udpAsk])
  have := h chaosEnv r1.1 r2.1 s1.1 s2.1 (some 8, 1) exChaos _ [str "version", str "bind"] (List.replicate 200 0) [] exLuck s1.2 s2.2 hs hv rfl rfl
    (by unfold DnsCache.Spec.RfcName ValidName ValidLabel; decide) rfl (by rw [List.length_replicate]; omega) k1 k2
  have := congrArg (·.1) this
  unfold caused at this
  rw [w1, w2] at this
  revert this
  simp [Act.from]

/-- The hypotheses of `own_query_history_partial` are met, and what is caused is not nothing: the query with two questions, after different queries of another client. -/
def twoRuns (ls : List (List Byte)) : Option (List (Act Nat) × List (Head Nat) × List (List (Head Nat))) :=
  (run exSt [(chaosEnv, both), (chaosEnv, udpAsk 7 (query 1 2 ls 1))]).bind fun r =>
    (step chaosEnv r.1 (EndToEnd.asking (some 8, 1) EndToEnd.bothQ (List.replicate 300 0) [] { exLuck with fuel := 60 })).map fun s => caused r.1 s.1 s.2

example : twoRuns ms = twoRuns org ∧ (twoRuns ms).isSome = true ∧ EndToEnd.Asks EndToEnd.bothQ [ms, org] ms (List.replicate 300 0) :=
  ⟨by decide +kernel, by decide +kernel, EndToEnd.bothAsks⟩

end Verif.Forwarder
