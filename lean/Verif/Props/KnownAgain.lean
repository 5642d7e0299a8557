import Verif.Props.Progress
import Verif.Props.EndToEnd
import Verif.Props.OwnEdns
/-! C135: what the cache knows is not asked again. -/

namespace Verif.Forwarder
open Msg MContext Pipeline HostsLoop Message Name Keeps DnsCache DnsCache.Spec Cache.Spec

variable {Addr : Type}

/-! ### the cache in a history of the program -/

theorem mgrSend_cache {e : Env} {st st' : St Addr} {x : Luck} {b : List Byte} {m h : Head Addr} {acts : List (Act Addr)}
    (hs : mgrSend e st x b m = some (st', h, acts)) : st'.cache = st.cache := by
  unfold mgrSend at hs
  split at hs
  · cases hs
  · cases hs; rfl
  · cases hs; rfl
  · cases hs; rfl
  · cases hs; rfl
  · split at hs
    · cases hs
    · split at hs
      · split at hs
        · cases hs
        · cases hs; rfl
      · cases hs; rfl

theorem recordOp_adds {s : Settings} {b : List Byte} {len fuel : Nat} {question behind : List Byte} {now : Int} {it : Parser.Itr} {ops : List Cache.Op}
    (h : recordOp s b len fuel question behind now it = some ops) (t : Int) : Cache.Op.sweep t ∉ ops := by
  unfold recordOp at h
  split at h
  · split at h
    · cases h
    · split at h
      · cases h
      · cases h; simp
      · split at h
        · cases h
        · cases h; simp
  · cases h; simp

theorem recordOps_adds {s : Settings} {b : List Byte} {len fuel : Nat} {question behind : List Byte} {clock : Nat → Int} {c : Parser.Counts} (t : Int) (n : Nat) :
    ∀ {it : Parser.Itr} {ops : List Cache.Op}, recordOps s b len fuel question behind clock c n it = some ops → Cache.Op.sweep t ∉ ops := by
  induction n with
  | zero => intro it ops h; cases h
  | succ n ih =>
    intro it ops h
    unfold recordOps at h
    split at h
    · cases h
    · cases h; simp
    · split at h
      · rename_i h1 h2
        cases h
        intro hm
        rcases List.mem_append.1 hm with hm | hm
        · exact recordOp_adds h1 t hm
        · exact ih h2 hm
      · cases h

theorem learn_adds {e : Env} {b : List Byte} {len fuel : Nat} {question behind : List Byte} {clock : Nat → Int} {first : Bool} {ops : List Cache.Op}
    (h : learn e b len fuel question behind clock first = some ops) : (∀ o ∈ ops, Wf o) ∧ ∀ t, Cache.Op.sweep t ∉ ops := by
  unfold learn at h
  split at h
  · refine ⟨event_wf (e := .response b len fuel question behind clock first) h, fun t => ?_⟩
    unfold addOps at h
    split at h
    · cases h; simp
    · split at h
      · cases h; simp
      · split at h
        · cases h
        · exact recordOps_adds t _ h
  · cases h; simp

theorem respond_adds {e : Env} {b : List Byte} {len fuel : Nat} {bn : List Byte} {clock : Nat → Int} {d d' : Module (Dest Addr)} {ops : List Cache.Op} {out : List (Head Addr)}
    (h : respond e b len fuel bn clock d = some (d', ops, out)) : (∀ o ∈ ops, Wf o) ∧ ∀ t, Cache.Op.sweep t ∉ ops := by
  unfold respond at h
  split at h
  · cases h
  · split at h
    · cases h
    · dsimp only at h
      split at h
      · cases h; simp
      · split at h
        · cases h; simp
        · split at h
          · split at h
            · cases h
            · rename_i hl; cases h; exact learn_adds hl
          · split at h
            · cases h
            · rename_i hl; cases h; exact learn_adds hl

/-- What an event does to the cache: it is only swept when the timer for it runs. -/
theorem step_cache {s : Settings} {e : Env} (he : e.cache = s) {st st' : St Addr} {ev : Ev Addr} {acts : List (Act Addr)} (h : step e st ev = some (st', acts)) :
    ∃ ops, Cache.run s.cfg st.cache ops = some st'.cache ∧ (∀ o ∈ ops, Wf o) ∧ ∀ t, Cache.Op.sweep t ∈ ops → ev = .cacheSweep t := by
  have same : st'.cache = st.cache → ∃ ops, Cache.run s.cfg st.cache ops = some st'.cache ∧ (∀ o ∈ ops, Wf o) ∧ ∀ t, Cache.Op.sweep t ∈ ops → ev = .cacheSweep t :=
    fun h => ⟨[], by rw [h]; rfl, by simp, by simp⟩
  cases ev with
  | udpQuery sock addr agent b len x =>
    simp only [step] at h
    split at h
    · cases h
    · split at h
      · cases h
      · rename_i hm; cases h; exact same (by have := mgrSend_cache hm; exact this)
  | tcpQuery sock agent b len x =>
    simp only [step] at h
    split at h
    · cases h
    · split at h
      · cases h
      · rename_i hm; cases h; exact same (by have := mgrSend_cache hm; exact this)
  | response i b len fuel bn clock =>
    simp only [step] at h
    split at h
    · cases h
    · split at h
      · cases h
      · rename_i hr
        split at h
        · cases h
        · rename_i hc
          cases h
          obtain ⟨h1, h2⟩ := respond_adds hr
          exact ⟨_, by rw [← he]; exact hc, h1, fun t ht => absurd ht (h2 t)⟩
  | take i k now rest =>
    simp only [step] at h
    split at h
    · cases h
    · split at h
      · cases h
      · cases h; exact same rfl
  | lose i k =>
    simp only [step] at h
    split at h
    · cases h
    · split at h
      · cases h
      · cases h; exact same rfl
  | sweep i now =>
    simp only [step] at h
    split at h
    · cases h
    · cases h; exact same rfl
  | cacheSweep now =>
    simp only [step] at h
    split at h
    · cases h
    · rename_i hc
      cases h
      exact ⟨[.sweep now], by rw [← he]; exact hc, by simp [Wf], by simp⟩
  | innerTake k cap sock rnd old x =>
    simp only [step] at h
    split at h
    · cases h
    · split at h
      · cases h
      · cases h; exact same rfl
      · split at h
        · cases h
        · rename_i hm; cases h; exact same (by have := mgrSend_cache hm; exact this)
  | innerLose k =>
    simp only [step] at h
    split at h
    · cases h
    · cases h; exact same rfl
  | outerTake k cap rest header fuel =>
    simp only [step] at h
    split at h
    · cases h
    · split at h
      · split at h
        · cases h
        · cases h; exact same rfl
        · cases h; exact same rfl
      · cases h
  | outerLose k =>
    simp only [step] at h
    split at h
    · cases h
    · cases h; exact same rfl
  | loopSweep now => simp only [step] at h; cases h; exact same rfl
  | reload ps hd => simp only [step] at h; cases h; exact same rfl
  | tcpOpen n => simp only [step] at h; cases h; exact same rfl

theorem run_cache {s : Settings} : ∀ {l : List (Env × Ev Addr)} {st st' : St Addr} {acts : List (Act Addr)}, (∀ p ∈ l, p.1.cache = s) → run st l = some (st', acts) →
    ∃ ops, Cache.run s.cfg st.cache ops = some st'.cache ∧ (∀ o ∈ ops, Wf o) ∧ ∀ t, Cache.Op.sweep t ∈ ops → ∃ p ∈ l, p.2 = .cacheSweep t := by
  intro l
  induction l with
  | nil => intro st st' acts _ h; cases h; exact ⟨[], rfl, by simp, by simp⟩
  | cons p l ih =>
    obtain ⟨e, ev⟩ := p
    intro st st' acts he h
    simp only [run] at h
    split at h
    · cases h
    · rename_i h1
      split at h
      · cases h
      · rename_i h2
        cases h
        obtain ⟨o1, a1, a2, a3⟩ := step_cache (he _ (List.mem_cons_self ..)) h1
        obtain ⟨o2, b1, b2, b3⟩ := ih (fun p hp => he p (List.mem_cons_of_mem _ hp)) h2
        refine ⟨o1 ++ o2, by rw [Cache.run_append, a1]; exact b1, ?_, ?_⟩
        · intro o ho
          rcases List.mem_append.1 ho with ho | ho
          · exact a2 o ho
          · exact b2 o ho
        · intro t ht
          rcases List.mem_append.1 ht with ht | ht
          · exact ⟨_, List.mem_cons_self .., a3 t ht⟩
          · obtain ⟨p, p1, p2⟩ := b3 t ht
            exact ⟨p, List.mem_cons_of_mem _ p1, p2⟩

theorem run_rest [DecidableEq Addr] {s : Settings} (ha : Area s.cfg) : ∀ {l : List (Env × Ev Addr)} {st st' : St Addr} {acts : List (Act Addr)}, Inv st → Rest s st →
    ProperRun s st l → run st l = some (st', acts) → Inv st' ∧ Rest s st' ∧ ∀ p ∈ l, p.1.cache = s := by
  intro l
  induction l with
  | nil => intro st st' acts hi hr _ h; cases h; exact ⟨hi, hr, by simp⟩
  | cons p l ih =>
    obtain ⟨e, ev⟩ := p
    intro st st' acts hi hr hl h
    obtain ⟨st1, a1, h1, h2, h3⟩ := progress ha hl.1 hi hr hl.2.1
    simp only [run, h1] at h
    split at h
    · cases h
    · rename_i h4
      cases h
      obtain ⟨k1, k2, k3⟩ := ih h2 h3 (hl.2.2 st1 a1 h1) h4
      refine ⟨k1, k2, ?_⟩
      intro p hp
      rcases List.mem_cons.1 hp with rfl | hp
      · exact hl.1.cache
      · exact k3 p hp

/-! ### the property -/

/-- At time `t` the cache holds, for this name and type, a record that has `r` seconds left. -/
def Known (s : Settings) (st : St Addr) (ls : List (List Byte)) (type : Nat) (t : Int) (r : Nat) : Prop :=
  ∃ found d, Cache.answers s.cfg st.cache (keyOf (text ls) type 1) t = some found ∧ (d, r) ∈ found

/-- No server is asked: nothing is sent to one, and nothing new waits for one. -/
def NotAsked (st st' : St Addr) (acts : List (Act Addr)) : Prop := st'.mods = st.mods ∧ ∀ i b, .server i b ∉ acts

theorem posts_notAsked (m : Head Addr) (l : List (Sent (Dest Addr))) (i : Nat) (b : List Byte) : ¬ .server i b ∈ (posts m l).1 := by
  intro hx
  obtain ⟨s, _, hs⟩ := List.mem_flatMap.1 hx
  unfold post at hs
  split at hs <;> simp at hs

theorem mgrSend_notAsked {e : Env} {st st' : St Addr} {x : Luck} {b : List Byte} {m h : Head Addr} {acts : List (Act Addr)} {o : List (Sent (Dest Addr))} (hon : e.cacheOn = true)
    (hf : DnsCache.fetch e.cache.cfg st.cache (b.drop m.entity.length) x.fuel x.now m = some (0, o))
    (hs : mgrSend e st x b m = some (st', h, acts)) : NotAsked st st' acts := by
  have hd : ∀ i, Pipeline.decide e st.cache x (b.drop m.entity.length) (requestTcp m) m ≠ some (.upstream i) := by
    intro i hd
    unfold Pipeline.decide at hd
    split at hd
    · cases hd
    · split at hd
      · cases hd
      · split at hd
        · cases hd
        · simp only [hf] at hd
          cases hd
  unfold mgrSend at hs
  split at hs
  · cases hs
  · cases hs; exact ⟨rfl, posts_notAsked m _⟩
  · cases hs; exact ⟨rfl, posts_notAsked m _⟩
  · cases hs; exact ⟨rfl, posts_notAsked m _⟩
  · cases hs; exact ⟨rfl, by simp⟩
  · rename_i i hi; exact absurd hi (hd i)

/-- C135.  Whatever well-formed traffic there has been: if at some time the cache holds a record for a name and a type (A, AAAA, MX, TXT, HTTPS), then until this record
expires no query of any client for this name and type makes the program ask a server, over UDP or TCP – whatever happens meanwhile.  Missing: names the cache holds an alias
of, other types, and replies that do not fit the space behind the query. -/
theorem not_again_partial [DecidableEq Addr] {s : Settings} (ha : Area s.cfg) (hi : s.cfg.ignoreTTL = false) (hpar : s.cfg.parallel = false) {st0 st1 st2 st3 : St Addr}
    (hs : Start st0) (hc : ∃ c, st0.cache = Cache.St.init s.cfg c) {l1 l2 : List (Env × Ev Addr)} {a1 a2 a3 : List (Act Addr)}
    (hl1 : ProperRun s st0 l1) (h1 : run st0 l1 = some (st1, a1)) (hl2 : ProperRun s st1 l2) (h2 : run st1 l2 = some (st2, a2))
    {c : Client Addr} {q : Message.Msg} {x : Question} {ls : List (List Byte)} {behind agent : List Byte} {lk : Luck} {t : Int} {r : Nat} {e : Env}
    (hk : Known s st1 ls x.type t r) (hsw : ∀ p ∈ l2, ∀ now, p.2 = .cacheSweep now → now < t + r)
    (he : e.cache = s) (hon : e.cacheOn = true) (hq : EndToEnd.Query q x ls behind) (hls : RfcName ls)
    (ht : x.type = 1 ∨ x.type = 15 ∨ x.type = 16 ∨ x.type = 28 ∨ x.type = 65) (hfuel : q.bytes.length ≤ lk.fuel)
    (hlo : t ≤ lk.now) (hhi : lk.now < t + r) (hcn : cnameFrom s.cfg st2.cache (text ls) lk.now = some none)
    (hroom : ∀ fs : List Fact, Cache.answers s.cfg st2.cache (keyOf (text ls) x.type 1) lk.now = some (fs.map (fun f => (form f.value, f.ttl))) → (∀ f ∈ fs, f.owner = ls) →
      q.bytes.length + need fs + 11 ≤ behind.length)
    (h3 : step e st2 (EndToEnd.asking c q behind agent lk) = some (st3, a3)) : NotAsked st2 st3 a3 := by
  subst he
  obtain ⟨c0, hc⟩ := hc
  have hs' := hs
  obtain ⟨s1, s2, s3, s4⟩ := hs'
  have hr0 : Rest e.cache st0 := by
    refine ⟨⟨[], [], rfl, ⟨c0, by rw [hc]; rfl⟩, by simp⟩, ?_, ?_, ?_, ?_⟩
    · rw [s1]; simp
    · rw [s3]; simp
    · rw [s2]; simp [waiting, Bst.State.init, Bst.Tree.toList]
    · rw [s4]; simp
  obtain ⟨i1, r1, _⟩ := run_rest ha (start_inv hs).1 hr0 hl1 h1
  obtain ⟨i2, r2, env2⟩ := run_rest ha i1 r1 hl2 h2
  obtain ⟨evs1, ops1, g1, g2, _⟩ := r1.cache
  obtain ⟨evs, ops, hh, haf, hev⟩ := r2.cache
  obtain ⟨ops', o1, o2, o3⟩ := run_cache env2 h2
  obtain ⟨as, d, k1, k2⟩ := hk
  have hx : ∃ l, Cache.answers e.cache.cfg st2.cache (keyOf (text ls) x.type 1) lk.now = some l ∧ l ≠ [] := by
    obtain ⟨as', r', m1, m2, _⟩ := Cache.stays ha (history_wf g1) o2 g2 (keyOf_no_zero (Generator.text_no_zero hls.1)) hi k1 k2 o1 (.inl hpar)
      (fun sw hsw' => by obtain ⟨p, p1, p2⟩ := o3 sw hsw'; exact hsw p p1 sw p2) hlo hhi
    exact ⟨as', m1, fun h => by rw [h] at m2; cases m2⟩
  obtain ⟨l, hl, hne⟩ := hx
  have hwf : ∀ ev ∈ evs, ev.WellFormed := by
    intro ev hev'
    have := hev ev hev'
    cases ev with
    | response b len fuel question bh clock first =>
      obtain ⟨m, fs, post, w1, _, w3, w4⟩ := this
      exact ⟨m, fs, post, w1, w3, w4⟩
    | sweep n => trivial
  obtain ⟨qn, hqn, hk1⟩ := hq.one
  have hqx : qn = x := by rw [hq.question] at hqn; simpa using hqn.symm
  subst hqx
  obtain ⟨k, hden⟩ := hq.name
  have hfetch : ∀ m : Head Addr, m.entity = q.bytes → ∃ o, DnsCache.fetch e.cache.cfg st2.cache behind lk.fuel lk.now m = some (0, o) := by
    intro m hm
    obtain ⟨fs, rr, f1, _⟩ := hit_answered_partial ha hwf hh haf (m := m) (behind := behind) (fuel := lk.fuel) hq.valid hq.question hk1 hq.label hls hq.some hq.empty ht hm hq.room.2
      (decode_ends hden 254 hfuel) hcn hl hne (fun fs hfs ho => hroom fs (by rw [hl, hfs]) ho)
    exact ⟨_, f1⟩
  obtain ⟨c1, c2⟩ := c
  cases c1 with
  | none =>
    unfold EndToEnd.asking step at h3
    dsimp only at h3
    split at h3
    · cases h3
    · rename_i code m hf
      obtain ⟨_, _, _, _, _, _, _, _, f8⟩ := fill_full hq.toAnswer hq.question hf
      split at h3
      · cases h3
      · rename_i hm
        cases h3
        obtain ⟨o, ho⟩ := hfetch m f8
        have hb : (q.bytes ++ behind).drop m.entity.length = behind := by rw [f8]; exact List.drop_left
        obtain ⟨n1, n2⟩ := mgrSend_notAsked hon (by rw [hb]; exact ho) hm
        exact ⟨n1, n2⟩
  | some a =>
    unfold EndToEnd.asking step at h3
    dsimp only at h3
    split at h3
    · cases h3
    · rename_i code m hf
      obtain ⟨_, _, _, _, _, _, _, _, f8⟩ := fill_full hq.toAnswer hq.question hf
      split at h3
      · cases h3
      · rename_i hm
        cases h3
        obtain ⟨o, ho⟩ := hfetch m f8
        have hb : (q.bytes ++ behind).drop m.entity.length = behind := by rw [f8]; exact List.drop_left
        obtain ⟨n1, n2⟩ := mgrSend_notAsked hon (by rw [hb]; exact ho) hm
        exact ⟨n1, n2⟩

/-! ### a case that meets the hypotheses -/

def kaQ : Message.Msg := ⟨[3, 4, 1, 0], [⟨wire ms, 1, 1⟩], [], [], []⟩
def kaLuck : Luck := { pgLuck with now := 1011 }
def kaBefore : List (Env × Ev Nat) := [(pgEnv, both), (pgEnv, pgAsk 8 kaQ.bytes), (pgEnv, serverSays 0 alReply.bytes)]
def kaMeanwhile : List (Env × Ev Nat) := [(pgEnv, .loopSweep 1010), (pgEnv, .cacheSweep 1010)]
def ka1 : St Nat := (goes exSt kaBefore).1
def ka2 : St Nat := (goes ka1 kaMeanwhile).1

theorem kaQ_query : EndToEnd.Query kaQ ⟨wire ms, 1, 1⟩ ms (List.replicate 500 0) where
  valid := plainValid _ _ _ _ [] msName (by decide) (by simp)
  one := ⟨_, rfl, rfl⟩
  name := ⟨_, denotes_wire (by decide) (by unfold At; decide +kernel) (by decide +kernel)⟩
  short := by decide
  noZero := by decide
  question := rfl
  label := rfl
  labels := by decide
  some := by decide
  empty := rfl
  extra := .inl rfl
  room := by rw [List.length_replicate]; decide +kernel

theorem ka_before : ProperRun exS exSt kaBefore := by
  have hs := pgEnv_sound
  refine properRun_step hs trivial (step_get (by decide +kernel)) (properRun_step hs ?_ (step_get (by decide +kernel)) (properRun_step hs ?_ (step_get (by decide +kernel)) trivial))
  · refine ⟨kaQ, ⟨wire ms, 1, 1⟩, ms, List.replicate 500 0, asksAll_one ⟨kaQ_query.valid, rfl, rfl, rfl, alNames.2, rfl⟩, rfl, rfl, by decide +kernel, ?_, ?_, by decide +kernel,
      fun _ _ => fits_here (by decide +kernel) (vs := []) (by decide +kernel) (nothing_fits ?_), by simp [pgEnv, exEnv]⟩
    · rw [List.length_replicate]; decide +kernel
    · rw [List.length_replicate]; decide
    · rw [List.length_replicate]; decide +kernel
  · exact ⟨by decide +kernel, alReply, List.replicate 200 0, answerAll_one alReply_ok, rfl, rfl, by decide +kernel, by simp [pgEnv, exEnv],
      fun r' hp => by
        rcases hp with ⟨_, rfl⟩ | ⟨c, hc, _⟩
        · exact ⟨_, pgReply_says, by simp; unfold HostsLoop.Spec.Simple; decide⟩
        · simp [pgEnv, exEnv] at hc⟩

/-- Client 8 asks and is answered; ten seconds and a sweep later client 9 is answered without a server being asked. -/
example : ∃ st' acts, step pgEnv ka2 (EndToEnd.asking (some 9, 1) kaQ (List.replicate 500 0) [] kaLuck) = some (st', acts) ∧ acts = [.client (.udp 1 9 false
    (⟨[3, 4, 0x81, 0x80], [⟨wire ms, 1, 1⟩], [⟨[0xC0, 12], 1, 1, 50, [1, 2, 3, 4]⟩], [], []⟩ : Message.Msg).bytes)] ∧ NotAsked ka2 st' acts := by
  have h : (step pgEnv ka2 (EndToEnd.asking (some 9, 1) kaQ (List.replicate 500 0) [] kaLuck)).map (·.2) = some [.client (.udp 1 9 false
    (⟨[3, 4, 0x81, 0x80], [⟨wire ms, 1, 1⟩], [⟨[0xC0, 12], 1, 1, 50, [1, 2, 3, 4]⟩], [], []⟩ : Message.Msg).bytes)] := by decide +kernel
  obtain ⟨r, h, h'⟩ := Option.map_eq_some_iff.1 h
  have hrun1 : run exSt kaBefore = some (ka1, (goes exSt kaBefore).2) := by
    obtain ⟨y, hy⟩ := Option.isSome_iff_exists.1 (show (run exSt kaBefore).isSome = true by decide +kernel)
    simp [ka1, goes, hy]
  have hrun2 : run ka1 kaMeanwhile = some (ka2, (goes ka1 kaMeanwhile).2) := by
    obtain ⟨y, hy⟩ := Option.isSome_iff_exists.1 (show (run ka1 kaMeanwhile).isSome = true by decide +kernel)
    simp [ka2, goes, hy]
  have hmean : ProperRun exS ka1 kaMeanwhile :=
    properRun_step pgEnv_sound trivial (step_get (by decide +kernel)) (properRun_step pgEnv_sound trivial (step_get (by decide +kernel)) trivial)
  refine ⟨r.1, r.2, h, h', not_again_partial (s := exS) (t := 1001) (r := 60) Cache.demo_area rfl rfl (st0 := exSt) ⟨rfl, rfl, rfl, rfl⟩ ⟨_, rfl⟩ ka_before hrun1
    hmean hrun2
    ⟨[([1, 2, 3, 4], 60)], [1, 2, 3, 4], by decide +kernel, List.mem_singleton.2 rfl⟩ ?_ rfl rfl kaQ_query alNames.2 (.inl rfl) (by decide +kernel) (by decide) (by decide)
    (by decide +kernel) ?_ h⟩
  · intro p hp now he
    simp only [kaMeanwhile, List.mem_cons, List.not_mem_nil, or_false] at hp
    rcases hp with rfl | rfl
    · cases he
    · cases he; decide
  · intro fs hv hf
    rw [show Cache.answers exS.cfg ka2.cache (keyOf (text ms) 1 1) kaLuck.now = some [([1, 2, 3, 4], 50)] by decide +kernel, Option.some.injEq] at hv
    rw [List.length_replicate]
    obtain ⟨f, fs', rfl, h1, h2⟩ := List.map_eq_cons_iff.1 hv.symm
    obtain rfl := List.map_eq_nil_iff.1 h2
    have hlast := congrArg List.getLast? (congrArg Prod.fst h1)
    have hval : f.value = .raw [1, 2, 3, 4] := by
      have h1' := congrArg Prod.fst h1
      dsimp only at h1' hlast
      cases hfv : f.value with
      | raw d => rw [hfv] at h1'; rw [show d = _ from h1']
      | name tg => rw [hfv] at hlast; simp [form] at hlast
      | mx p tg => rw [hfv] at hlast; simp [form, List.getLast?_append] at hlast
    simp only [need, List.map_cons, List.map_nil, hval, hf f (by simp)]
    decide +kernel

/-- After the record has expired a server is asked again. -/
example : (step pgEnv ka2 (EndToEnd.asking (some 9, 1) kaQ (List.replicate 500 0) [] { kaLuck with now := 1061 })).map (·.2) = some [.server 0 kaQ.bytes] := by decide +kernel

/-! ### what is not so -/

/-- C135 for records of any type: if a server's response that answers a query has a record of the name and type asked for, then until this record expires no such query
makes the program ask a server. -/
def NotAgain : Prop := ∀ (e : Env) (st0 st st1 st2 st3 : St Nat) (l : List (Env × Ev Nat)) (a a1 a2 a3 : List (Act Nat)) (q r : Message.Msg) (ls : List (List Byte)) (x : Question) (y : RR)
  (c : Client Nat) (i fuel : Nat) (behind tail bn agent : List Byte) (lk lk' : Luck) (t : Int),
  e.cacheOn = true → Start st0 → (∀ z ∈ l, Accepted z.2) → run st0 l = some (st, a) → About q ls behind → About r ls tail → q.qs = [x] → r.qs = [x] → r.head.take 2 = q.head.take 2 →
  y ∈ r.an → y.type = x.type → y.klass = x.klass → y.name = [0xC0, 12] → step e st (EndToEnd.asking c q behind agent lk) = some (st1, a1) → .server i q.bytes ∈ a1 →
  step e st1 (.response i (r.bytes ++ tail) r.bytes.length fuel bn (fun _ => t)) = some (st2, a2) → t ≤ lk'.now → lk'.now < t + y.ttl →
  step e st2 (EndToEnd.asking c q behind agent lk') = some (st3, a3) → NotAsked st2 st3 a3

/-- False of the code: records of types it does not know are not kept. -/
theorem not_again_false : ¬ NotAgain := by
  intro hall
  have h : ((run exSt [(exEnv, both)]).bind fun r => (step exEnv r.1 (EndToEnd.asking (some 8, 1) ednsQ (List.replicate 200 0) [] exLuck)).bind fun r1 =>
      (step exEnv r1.1 (serverSays 0 ednsR.bytes)).bind fun r2 => (step exEnv r2.1 (EndToEnd.asking (some 8, 1) ednsQ (List.replicate 200 0) [] { exLuck with now := 1002 })).map
        fun r3 => (r1.2, r2.2, r3.2)) =
      some ([.server 0 ednsQ.bytes], [.client (.udp 1 8 false ednsR.bytes)], [.server 0 ednsQ.bytes]) := by decide +kernel
  obtain ⟨r, h0, h⟩ := Option.bind_eq_some_iff.1 h
  obtain ⟨r1, h1, h⟩ := Option.bind_eq_some_iff.1 h
  obtain ⟨r2, h2, h⟩ := Option.bind_eq_some_iff.1 h
  obtain ⟨r3, h3, h⟩ := Option.map_eq_some_iff.1 h
  simp only [Prod.mk.injEq] at h
  refine (hall exEnv exSt r.1 r1.1 r2.1 r3.1 [(exEnv, both)] r.2 r1.2 r2.2 r3.2 ednsQ ednsR ms ⟨wire ms, 99, 1⟩ ⟨[0xC0, 12], 99, 1, 60, [1, 2, 3]⟩ (some 8, 1) 0 50
    (List.replicate 200 0) (List.replicate 200 0) [] [] exLuck { exLuck with now := 1002 } 1001 rfl ⟨rfl, rfl, rfl, rfl⟩
    (by intro y hy; rw [List.mem_singleton] at hy; subst hy; trivial) h0 ednsQ_about ednsR_about rfl rfl rfl (List.mem_singleton.2 rfl) rfl rfl rfl h1
    (by rw [h.1]; exact List.mem_singleton.2 rfl) h2 (by decide) (by decide) h3).2 0 ednsQ.bytes ?_
  rw [h.2.2]; exact List.mem_singleton.2 rfl

end Verif.Forwarder
