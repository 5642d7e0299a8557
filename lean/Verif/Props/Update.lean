import Verif.Model.Update
import Verif.Spec.Update
import Verif.Props.Startup
/-! C126: an update puts into force what the files say then. -/

namespace Verif.Startup
open Verif.Config ReadLine

/-- What the configuration of the stages is taken from, after these updates. -/
structure SourcesAfter (w : World) (us : List World) (tab : Table) (cfg : Pipeline.Config) : Prop where
  types : ∃ l ns, Holds tab "DisabledType" (.str l) ∧ Numbers l ns ∧ cfg.types.getD [] = ns
  domains : ∃ l, Holds tab "DisabledDomain" (.str l) ∧ cfg.opt.getD [] = l
  lists : ∃ v ps tss, As w tab "ReloadDisabledList" us v ∧ Holds tab "DisabledList" (.path ps) ∧ FilesLines v.file 512 ps tss ∧ cfg.files.getD [] = tss
  static : ∃ l, Holds tab "AppendHosts" (.str l) ∧ Hosts.Lines l cfg.static
  dynamic : HostsAfter w tab us cfg.dynamic
  groups : Holds tab "ServerGroup" (.str (cfg.decls.flatMap Groups.Decl.tokens))
  world : ∃ v, As w tab "ReloadGroupFile" us v ∧ cfg.world = groupWorld v

/-- The addresses that are blocked and substituted are those of the files of `v`. -/
def Addresses (v : World) (tab : Table) (lists : Option IpChunk.Chunk) : Prop :=
  ∃ block subst files tss, Holds tab "BlockIP" (.str block) ∧ Holds tab "IPSubstituting" (.str subst) ∧ Holds tab "IPSubstitutingFile" (.path files) ∧
    FilesLines (fun p => (v.expandTo p).bind v.file) 512 files tss ∧
    ∀ e1 e2 e3, AllBlock block e1 → AllPairs subst e2 → AllLines tss.flatten e3 → IpMisc.WellFormed (e1 ++ e2 ++ e3) →
      (lists = none ∧ e1 ++ e2 ++ e3 = []) ∨ ∃ l, lists = some l ∧ IpChunk.find l = IpMisc.policy (e1 ++ e2 ++ e3)

/-- What no update changes. -/
structure Rest (e e' : Pipeline.Env) : Prop where
  types : e'.filter.types = e.filter.types
  static : e'.hosts.static = e.hosts.static
  block6 : e'.hosts.blockIpv6 = e.hosts.blockIpv6
  good : e'.goodIp = e.goodIp
  cacheOn : e'.cacheOn = e.cacheOn
  cache : e'.cache = e.cache
  opts : e'.opts = e.opts
  fnm : e'.fnm = e.fnm
  ap : e'.ap = e.ap
  negative : e'.blockNegative = e.blockNegative

section
variable {w : World} {dir : List Byte} {expand : List Byte → List Byte} {ts : List (List Byte)} {tab : Table} {c : Cfg}

/-- What is known after some updates. -/
structure After (w : World) (c : Cfg) (tab : Table) (e0 : Pipeline.Env) (us : List World) (e : Pipeline.Env) : Prop where
  cfg : ∃ cfg, SourcesAfter w us tab cfg ∧ Pipeline.Configured e cfg
  misc : ∃ v, As w tab "ReloadIPSubstituting" us v ∧ (v = w ∨ v ∈ us) ∧ Startup.misc v c = some (e.lists, e.blockNegative)
  rest : Rest e0 e

theorem files_seen {v : World} {ps : List (List Byte)} (ho : ∀ p ∈ ps, ∀ content, v.file p = some content → TextOk 512 content)
    {f : Option (List (List (List Byte)))} (h : within (linesOf v 512) (orNull ps) = some f) :
    ∃ tss : List (List (List Byte)), FilesLines v.file 512 ps tss ∧ f.getD [] = tss := by
  unfold orNull at h
  split at h
  · rename_i e; subst e; cases h; exact ⟨[], .nil, rfl⟩
  · unfold within at h
    dsimp only at h
    rw [Option.map_eq_some_iff] at h
    obtain ⟨x, e1, rfl⟩ := h
    exact ⟨x, linesOf_seen (by omega) ho e1, rfl⟩

theorem misc_none {v : World} {b : Bool} (h : Startup.misc v c = some (none, b)) (u : World) : Startup.misc u c = some (none, b) := by
  unfold Startup.misc at h ⊢
  split at h
  · split at h
    · rename_i e
      rw [if_pos e]
      exact h
    · split at h
      · cases h
      · rw [Option.map_eq_some_iff] at h
        obtain ⟨l, -, h⟩ := h
        cases h
  · cases h

theorem misc_negative {v u : World} {l l' : Option IpChunk.Chunk} {b b' : Bool} (h : Startup.misc v c = some (l, b)) (h' : Startup.misc u c = some (l', b')) : b = b' := by
  have key : ∀ {v : World} {l : Option IpChunk.Chunk} {b : Bool}, Startup.misc v c = some (l, b) → getB c (str "BlockNegativeResponse") = some b := by
    intro v l b h
    unfold Startup.misc at h
    split at h
    · rename_i h4
      split at h
      · rename_i e
        simp only [Option.some.injEq, Prod.mk.injEq] at h
        rw [h4, e.2.2.2, h.2]
      · split at h
        · cases h
        · rw [Option.map_eq_some_iff] at h
          obtain ⟨l, -, h⟩ := h
          simp only [Prod.mk.injEq] at h
          rw [h4, h.2]
    · cases h
  have := (key h).symm.trans (key h')
  exact Option.some.inj this

theorem as_still {k : String} {us : List World} {u v : World} (hk : Holds tab k (.bool false)) (h : As w tab k us u) : As w tab k (us ++ [v]) u := by
  cases h with
  | start => exact .still hk
  | still h => exact .still hk
  | again h => exact absurd (holds_inj h hk) (by simp)

/-- One more update. -/
theorem after_step {e0 e e' : Pipeline.Env} {us : List World} {v : World} (hr : Reads expand (table dir) ts tab) (hs : ShowsTable c tab)
    (hv : Readable v tab) (ha : After w c tab e0 us e) (h : update v c e = some e') : After w c tab e0 (us ++ [v]) e' := by
  obtain ⟨⟨cfg, hcfg, hconf⟩, ⟨u, hu1, hu2, hu3⟩, hrest⟩ := ha
  unfold update at h
  split at h
  · rename_i dynamic domains lists negative groups h1 h2 h3 h4
    simp only [Option.some.injEq] at h
    -- hosts
    obtain ⟨path, hpath⟩ := reads_path hr 24 (k := "HostsDownloadPath") rfl
    have hdyn : ∃ es, HostsAfter w tab (us ++ [v]) es ∧ Hosts.LoadedOpt dynamic es := by
      unfold hostsAgain getRaw at h1
      rw [(shown_path hs hpath).1] at h1
      cases path with
      | nil => cases h1
      | cons f l =>
        dsimp only [Option.map_some, List.head?_cons] at h1
        cases hf : v.file f with
        | none =>
          rw [hf] at h1
          rw [← Option.some.inj h1]
          exact ⟨_, .same hcfg.dynamic hpath hf, hconf.dynamic⟩
        | some content =>
          rw [hf] at h1
          dsimp only at h1
          rw [Option.bind_eq_some_iff] at h1
          obtain ⟨ls, e3, e4⟩ := h1
          rw [Option.map_eq_some_iff] at e4
          obtain ⟨x, e5, e6⟩ := e4
          obtain ⟨k1, k2⟩ := hv.dynamic f l content hpath hf
          have k3 := readFile_seen (by omega) hf k1 e3
          obtain ⟨es, k4⟩ := k2 ls k3
          rw [← e6]
          exact ⟨es, .again hpath hf k3 k4, ls, k4, e5⟩
    obtain ⟨es, hes1, hes2⟩ := hdyn
    -- domains
    obtain ⟨b1, hb1⟩ := reads_bool hr 29 (k := "ReloadDisabledList") rfl
    obtain ⟨doms, hdoms⟩ := reads_str hr 44 (k := "DisabledDomain") rfl
    obtain ⟨ps, hps⟩ := reads_path hr 45 (k := "DisabledList") rfl
    have hdom : ∃ opt files, opt.getD [] = doms ∧ (∃ v' tss, As w tab "ReloadDisabledList" (us ++ [v]) v' ∧ FilesLines v'.file 512 ps tss ∧ files.getD [] = tss) ∧
        domains = Filter.initDomains opt files := by
      unfold domainsAgain at h2
      rw [shown_bool hs hb1] at h2
      cases b1 with
      | false =>
        dsimp only at h2
        obtain ⟨l, g1, g2⟩ := hcfg.domains
        obtain ⟨v', ps', tss, g3, g4, g5, g6⟩ := hcfg.lists
        have e1 := holds_inj g1 hdoms
        injection e1 with e1
        have e2 := holds_inj g4 hps
        injection e2 with e2
        subst e1; subst e2
        obtain ⟨junk, g7⟩ := hconf.filter
        exact ⟨cfg.opt, cfg.files, g2, ⟨v', tss, as_still hb1 g3, g5, g6⟩, by rw [← Option.some.inj h2, g7]⟩
      | true =>
        dsimp only at h2
        rw [(shown_str hs hdoms).2, (shown_path hs hps).2] at h2
        dsimp only [Option.bind_some] at h2
        split at h2
        · rename_i a f g1 g2
          cases g1
          obtain ⟨tss, g3, g4⟩ := files_seen (hv.lists ps hps) g2
          exact ⟨_, f, orNull_getD _, ⟨v, tss, .again hb1, g3, g4⟩, (Option.some.inj h2).symm⟩
        · cases h2
    obtain ⟨opt, files, hopt, ⟨v1, tss, hv1, htss, hfiles⟩, rfl⟩ := hdom
    -- addresses
    obtain ⟨b2, hb2⟩ := reads_bool hr 31 (k := "ReloadIPSubstituting") rfl
    have hmisc : ∃ v', As w tab "ReloadIPSubstituting" (us ++ [v]) v' ∧ (v' = w ∨ v' ∈ us ++ [v]) ∧ Startup.misc v' c = some (lists, negative) := by
      unfold miscAgain at h3
      rw [shown_bool hs hb2] at h3
      cases b2 with
      | false =>
        simp only [Option.some.injEq, Prod.mk.injEq] at h3
        refine ⟨u, as_still hb2 hu1, hu2.imp_right (by simp [·]), ?_⟩
        rw [hu3, h3.1, h3.2]
      | true =>
        dsimp only at h3
        refine ⟨v, .again hb2, .inr (by simp), ?_⟩
        split at h3
        · cases h3
        · rename_i b hm
          simp only [Option.some.injEq, Prod.mk.injEq] at h3
          have := misc_none hm u
          rw [hu3] at this
          rw [hm, ← this, h3.1, h3.2]
        · rename_i l b hm
          rw [hm, h3]
    -- groups
    obtain ⟨b3, hb3⟩ := reads_bool hr 30 (k := "ReloadGroupFile") rfl
    obtain ⟨gl, hgl⟩ := reads_str hr 5 (k := "ServerGroup") rfl
    have hgr : ∃ (v' : World) (ds : List Groups.Decl), As w tab "ReloadGroupFile" (us ++ [v]) v' ∧ Holds tab "ServerGroup" (.str (ds.flatMap Groups.Decl.tokens)) ∧
        (∀ d ∈ ds, ∀ p content, Groups.Uses (groupWorld v') d p → (groupWorld v').file p = some (some content) → Groups.FileOk content) ∧
        (∀ d ∈ ds, Groups.Fine d) ∧ Groups.load (groupWorld v') (ds.flatMap Groups.Decl.tokens) = some groups := by
      unfold groupsAgain at h4
      rw [shown_bool hs hb3] at h4
      cases b3 with
      | false =>
        dsimp only at h4
        obtain ⟨v', g1, g2⟩ := hcfg.world
        refine ⟨v', cfg.decls, as_still hb3 g1, hcfg.groups, ?_, hconf.fine, ?_⟩
        · rw [← g2]; exact hconf.files
        · rw [← g2, ← Option.some.inj h4]; exact hconf.groups
      | true =>
        dsimp only at h4
        rw [(shown_str hs hgl).2, Option.bind_some, orNull_getD] at h4
        obtain ⟨ds, rfl⟩ := Groups.load_shape _ _ (by rw [h4]; rfl)
        have g := hv.groups ds hgl
        exact ⟨v, ds, .again hb3, hgl, fun d hd => (g d hd).2, fun d hd => (g d hd).1, h4⟩
    obtain ⟨v2, ds, hv2, hds, hfo, hfine, hload⟩ := hgr
    have hneg : negative = e.blockNegative := by
      obtain ⟨v', -, -, hm⟩ := hmisc
      exact misc_negative hm hu3
    subst h
    obtain ⟨junk, hfil⟩ := hconf.filter
    refine ⟨⟨{ cfg with opt := opt, files := files, dynamic := es, world := groupWorld v2, decls := ds },
      ⟨hcfg.types, ⟨doms, hdoms, hopt⟩, ⟨v1, ps, tss, hv1, hps, htss, hfiles⟩, hcfg.static, hes1, hds, v2, hv2, rfl⟩,
      ⟨⟨junk, by rw [hfil]⟩, hconf.static, hes2, hfo, hfine, hload⟩⟩, hmisc, ?_⟩
    obtain ⟨r1, r2, r3, r4, r5, r6, r7, r8, r9, r10⟩ := hrest
    exact ⟨r1, r2, r3, r4, r5, r6, r7, r8, r9, hneg.trans r10⟩
  · cases h

theorem after_all {e0 e e' : Pipeline.Env} (hr : Reads expand (table dir) ts tab) (hs : ShowsTable c tab) {us : List World} (ws : List World)
    (hw : ∀ v ∈ ws, Readable v tab) (ha : After w c tab e0 us e) (h : updates c e ws = some e') : After w c tab e0 (us ++ ws) e' := by
  induction ws generalizing us e with
  | nil => cases h; simpa using ha
  | cons v ws ih =>
    unfold updates at h
    rw [Option.bind_eq_some_iff] at h
    obtain ⟨e1, h1, h2⟩ := h
    have := ih (fun u hu => hw u (by simp [hu])) (after_step hr hs (hw v (by simp)) ha h1) h2
    simpa using this

theorem after_start {r : Running} (hr : Reads expand (table dir) ts tab) (hs : ShowsTable c tab) (h : serve w c = some r) (hw : Readable w tab) :
    After w c tab r.env [] r.env := by
  obtain ⟨cfg, ⟨s1, s2, ⟨ps, tss, s3, s4, s5⟩, s6, s7, s8, s9⟩, h2⟩ := configured_partial hr hs h hw
  exact ⟨⟨cfg, ⟨s1, s2, ⟨w, ps, tss, .start, s3, s4, s5⟩, s6, .start s7, s8, w, .start, s9⟩, h2⟩,
    ⟨w, .start, .inl rfl, (load_parts (serve_parts h).1).misc⟩, ⟨rfl, rfl, rfl, rfl, rfl, rfl, rfl, rfl, rfl, rfl⟩⟩

theorem scheduled_iff (hr : Reads expand (table dir) ts tab) (hs : ShowsTable c tab) :
    ∃ b, scheduled w c = some b ∧ (b = true ↔ Scheduled w tab) := by
  obtain ⟨hosts, hhosts⟩ := reads_path hr 22 (k := "Hosts") rfl
  obtain ⟨script, hscript⟩ := reads_str hr 25 (k := "HostsScript") rfl
  obtain ⟨retry, hretry⟩ := reads_int hr 23 (k := "HostsRetryInterval") rfl
  unfold scheduled getRaw
  rw [(shown_path hs hhosts).2, (shown_str hs hscript).1, shown_int hs hretry]
  refine ⟨_, rfl, ?_⟩
  simp only [Bool.and_eq_true, decide_eq_true_eq, Bool.not_eq_true']
  constructor
  · rintro ⟨⟨h1, h2⟩, h3⟩
    refine ⟨⟨hosts, hhosts, ?_⟩, fun s l hsl he => ?_, retry, hretry, h3⟩
    · rintro rfl; cases h1
    · have e := holds_inj hsl hscript
      injection e with e
      subst e
      simp [he] at h2
  · rintro ⟨⟨hosts', h1, h2⟩, h3, n, h4, h5⟩
    have e := holds_inj h1 hhosts
    injection e with e
    subst e
    have e := holds_inj h4 hretry
    injection e with e
    subst e
    refine ⟨⟨?_, ?_⟩, h5⟩
    · unfold orNull; rw [if_neg h2]; rfl
    · cases script with
      | nil => rfl
      | cons s l =>
        have := h3 s l hscript
        cases he : w.expandTo s with
        | none => exact absurd he this
        | some x => simp [he]

/-- The parts of `updated_partial`, from the values of the options. -/
theorem live_partial {ws : List World} {e : Pipeline.Env} (hr : Reads expand (table dir) ts tab) (hs : ShowsTable c tab)
    (hw : ∀ v ∈ w :: ws, Readable v tab ∧ ∀ ps, Holds tab "IPSubstitutingFile" (.path ps) → ∀ p ∈ ps, ∀ content, (v.expandTo p).bind v.file = some content → TextOk 512 content)
    (h : live w c ws = some e) :
    ∃ r us cfg, serve w c = some r ∧ Due w tab ws us ∧ SourcesAfter w us tab cfg ∧ Pipeline.Configured e cfg ∧
      (∃ v, As w tab "ReloadIPSubstituting" us v ∧ Addresses v tab e.lists) ∧ Rest r.env e := by
  unfold live at h
  rw [Option.bind_eq_some_iff] at h
  obtain ⟨r, hsv, h⟩ := h
  obtain ⟨b, hb, hbs⟩ := scheduled_iff (w := w) hr hs
  obtain ⟨n, hn⟩ := reads_int hr 28 (k := "ModulesUpdateInterval") rfl
  rw [hb, shown_int hs hn] at h
  have h0 := after_start hr hs hsv (hw w (by simp)).1
  have key : ∃ us, Due w tab ws us ∧ (∀ v ∈ us, v ∈ ws) ∧ After w c tab r.env us e := by
    cases b with
    | false =>
      dsimp only at h
      rw [← Option.some.inj h]
      exact ⟨[], .never (fun hc => by simpa using hbs.2 hc), by simp, h0⟩
    | true =>
      dsimp only at h
      split at h
      · rename_i hle
        exact ⟨_, .once (hbs.1 rfl) hn hle, fun v hv => List.mem_of_mem_take hv,
          by simpa using after_all hr hs _ (fun v hv => (hw v (List.mem_cons_of_mem _ (List.mem_of_mem_take hv))).1) h0 h⟩
      · rename_i hle
        exact ⟨_, .every (hbs.1 rfl) hn (by omega), fun v hv => hv, by simpa using after_all hr hs _ (fun v hv => (hw v (by simp [hv])).1) h0 h⟩
  obtain ⟨us, hdue, hsub, ⟨cfg, k1, k2⟩, ⟨v, k3, k4, k5⟩, k6⟩ := key
  refine ⟨r, us, cfg, hsv, hdue, k1, k2, ⟨v, k3, misc_says hr hs k5 (hw v ?_).2⟩, k6⟩
  rcases k4 with rfl | k4
  · simp
  · exact List.mem_cons_of_mem _ (hsub v k4)

end

/-- C126.  Whatever the configuration file holds, and whatever becomes of the files while the program runs: what queries meet after the updates that are
due is what the options say, with the lists, the groups and the substitutions of the files as they were at the last update if they are to be read
again, and as they were at the start if not; with the downloaded hosts as they were when the file could last be opened; and everything else as at the
start.  Missing: what is missing in `started_partial`, and updates after which a server group cannot be set up. -/
theorem updated_partial {w : World} {path dir : List Byte} (hh : Home w dir) {ss : List (List Byte)} {last : List Byte} {E : Nat} (hf : FileFits w path dir ss last E)
    {ws : List World}
    (hw : ∀ ts tab, Seen 2048 (ss ++ [last]) ts → Reads (w.expand (dir ++ str "/") (directoryOf path)) (table dir) ts tab → ∀ v ∈ w :: ws, Readable v tab ∧
      ∀ ps, Holds tab "IPSubstitutingFile" (.path ps) → ∀ p ∈ ps, ∀ content, (v.expandTo p).bind v.file = some content → TextOk 512 content)
    {e : Pipeline.Env} (h : ((environment w path).bind fun c => live w c ws) = some e) :
    ∃ r ts tab us cfg, (environment w path).bind (serve w) = some r ∧ Seen 2048 (ss ++ [last]) ts ∧
      Reads (w.expand (dir ++ str "/") (directoryOf path)) (table dir) ts tab ∧ Due w tab ws us ∧ SourcesAfter w us tab cfg ∧ Pipeline.Configured e cfg ∧
      (∃ v, As w tab "ReloadIPSubstituting" us v ∧ Addresses v tab e.lists) ∧ Rest r.env e := by
  obtain ⟨c, ts, tab, h1, h2, h3, h4⟩ := options_partial hh hf
  rw [h1, Option.bind_some] at h
  obtain ⟨r, us, cfg, k⟩ := live_partial h3 h4 (hw ts tab h2 h3) h
  exact ⟨r, ts, tab, us, cfg, by rw [h1, Option.bind_some]; exact k.1, h2, h3, k.2⟩

theorem updates_snoc {c : Cfg} {e e' : Pipeline.Env} {v : World} (ws : List World) (h : updates c e (ws ++ [v]) = some e') : ∃ e1, update v c e1 = some e' := by
  induction ws generalizing e with
  | nil =>
    rw [List.nil_append] at h
    unfold updates at h
    rw [Option.bind_eq_some_iff] at h
    obtain ⟨e1, h1, h2⟩ := h
    cases h2
    exact ⟨e, h1⟩
  | cons u ws ih =>
    rw [List.cons_append] at h
    unfold updates at h
    rw [Option.bind_eq_some_iff] at h
    obtain ⟨e1, -, h2⟩ := h
    exact ih h2

/-- C126, whatever the options and the files hold: if there are updates, and everything is to be read again, then after one the domains, the hosts, the
groups and the substitutions are those a program started at that moment would have, as long as the downloaded hosts can be opened. -/
theorem as_restarted {w v : World} {c : Cfg} {ws : List World} {n : Int} {f content : List Byte} {e : Pipeline.Env} {r : Running}
    (hw : scheduled w c = some true) (hv : scheduled v c = some true) (hn : getI c (str "ModulesUpdateInterval") = some n) (hpos : 0 < n)
    (h1 : getB c (str "ReloadDisabledList") = some true) (h2 : getB c (str "ReloadGroupFile") = some true) (h3 : getB c (str "ReloadIPSubstituting") = some true)
    (hf : getRaw c (str "HostsDownloadPath") = some (some f)) (hc : v.file f = some content)
    (h : live w c (ws ++ [v]) = some e) (hr : serve v c = some r) :
    e.filter.domains = r.env.filter.domains ∧ e.hosts.dynamic = r.env.hosts.dynamic ∧ e.groups = r.env.groups ∧ e.blockNegative = r.env.blockNegative ∧
      (r.env.lists ≠ none → e.lists = r.env.lists) := by
  unfold live at h
  rw [Option.bind_eq_some_iff] at h
  obtain ⟨r0, h0, h⟩ := h
  rw [hw, hn] at h
  dsimp only at h
  rw [if_neg (by omega)] at h
  have hmisc : ∃ u, misc u c = some (e.lists, e.blockNegative) := by
    have key : ∀ (ws : List World) (e1 : Pipeline.Env), (∃ u, misc u c = some (e1.lists, e1.blockNegative)) → updates c e1 ws = some e →
        ∃ u, misc u c = some (e.lists, e.blockNegative) := by
      intro ws
      induction ws with
      | nil => intro e1 h1 h2; cases h2; exact h1
      | cons x xs ih =>
        intro e1 k1 k2
        unfold updates at k2
        rw [Option.bind_eq_some_iff] at k2
        obtain ⟨e2, k2, k3⟩ := k2
        refine ih e2 ?_ k3
        unfold update at k2
        split at k2
        · rename_i l b _ _ _ g _
          simp only [Option.some.injEq] at k2
          subst k2
          unfold miscAgain at g
          rw [h3] at g
          dsimp only at g
          split at g
          · cases g
          · simp only [Option.some.injEq, Prod.mk.injEq] at g
            rw [← g.1, ← g.2]
            exact k1
          · rename_i hm
            simp only [Option.some.injEq, Prod.mk.injEq] at g
            exact ⟨x, by rw [hm, ← g.1, ← g.2]⟩
        · cases k2
    exact key _ _ ⟨w, (load_parts (serve_parts h0).1).misc⟩ h
  obtain ⟨e1, hu⟩ := updates_snoc ws h
  have hl := load_parts (serve_parts hr).1
  obtain ⟨u, hmisc⟩ := hmisc
  have hneg := misc_negative hmisc hl.misc
  unfold update at hu
  split at hu
  · rename_i dynamic domains lists negative groups k1 k2 k3 k4
    simp only [Option.some.injEq] at hu
    subst hu
    refine ⟨?_, ?_, ?_, hneg, ?_⟩
    · have hfil := hl.filter
      unfold domainsAgain at k2
      unfold Startup.filter at hfil
      rw [h1] at k2
      dsimp only at k2
      split at k2
      · rename_i d fs g1 g2
        rw [g1, g2] at hfil
        split at hfil
        · rename_i t d' fs' g3 g4 g5
          cases g4; cases g5
          simp only [Option.some.injEq] at hfil
          rw [← Option.some.inj k2, ← hfil]
        · cases hfil
      · cases k2
    · have hd := hl.dynamic
      unfold hostsAgain at k1
      unfold dynamicHosts at hd
      unfold scheduled at hv
      rw [hf] at k1 hd
      dsimp only at k1
      rw [hc] at k1
      dsimp only at k1
      split at hv
      · rename_i hosts script retry g1 g2 g3
        rw [g1, g2, g3, hn] at hd
        simp only [Option.some.injEq, Bool.and_eq_true, decide_eq_true_eq, Bool.not_eq_true'] at hv
        obtain ⟨⟨v1, v2⟩, v3⟩ := hv
        dsimp only at hd
        rw [if_neg (by rintro rfl; cases v1), if_neg (by rw [v2]; simp), if_neg (by omega)] at hd
        split at hd
        · cases hd
        · rw [hc] at hd
          dsimp only at hd
          rw [k1] at hd
          exact Option.some.inj hd
      · cases hv
    · obtain ⟨conf, g1, g2⟩ := hl.groups
      unfold groupsAgain at k4
      rw [h2, g1] at k4
      dsimp only [Option.bind_some] at k4
      rw [k4] at g2
      exact Option.some.inj g2
    · intro hne
      unfold miscAgain at k3
      rw [h3] at k3
      dsimp only at k3
      rw [hl.misc] at k3
      split at k3
      · cases k3
      · rename_i hm
        simp only [Option.some.injEq, Prod.mk.injEq] at hm
        exact absurd hm.1 hne
      · rename_i hm
        simp only [Option.some.injEq, Prod.mk.injEq] at hm k3
        exact k3.1.symm.trans hm.1.symm
  · cases hu

/-! ### What does not hold -/

/-- A system with these files. -/
def filesWorld (fs : List (List Byte × List Byte)) : World :=
  { sampleWorld (str "/root") none with file := fun p => fs.lookup p }

/-- A name is disabled. -/
def Off (e : Pipeline.Env) (d : List Byte) : Bool := Filter.isDisabledDomain e.filter e.fnm d (bkdrHash d) []

/-- What cannot be read at an update stays as it is. -/
def UnreadableKept : Prop := ∀ (w v : World) (path : List Byte) (c : Cfg) (e e' : Pipeline.Env) (d : List Byte), environment w path = some c →
  live w c [] = some e → live w c [v] = some e' → (∀ p, v.file p = w.file p ∨ v.file p = none) → Off e d = true → Off e' d = true

/-- Not the domains of a file in `DisabledList`: they are enabled again. -/
theorem unreadable_kept_false : ¬ UnreadableKept := by
  intro h
  have h0 : ((environment (filesWorld [(str "/c", str "Hosts h\nDisabledList /l"), (str "/l", str "a.com")]) (str "/c")).bind fun c =>
      (live (filesWorld [(str "/c", str "Hosts h\nDisabledList /l"), (str "/l", str "a.com")]) c []).bind fun e =>
      (live (filesWorld [(str "/c", str "Hosts h\nDisabledList /l"), (str "/l", str "a.com")]) c [filesWorld []]).map fun e' =>
      (Off e (str "a.com"), Off e' (str "a.com"))) = some (true, false) := by decide +kernel
  rw [Option.bind_eq_some_iff] at h0
  obtain ⟨c, h1, h0⟩ := h0
  rw [Option.bind_eq_some_iff] at h0
  obtain ⟨e, h2, h0⟩ := h0
  rw [Option.map_eq_some_iff] at h0
  obtain ⟨e', h3, h4⟩ := h0
  simp only [Prod.mk.injEq] at h4
  have := h _ _ _ c e e' (str "a.com") h1 h2 h3 (fun p => .inr rfl) h4.1
  rw [h4.2] at this
  cases this

/-- If the lists are to be read again, and updates have an interval, the domains of a list are disabled when it was changed before an update. -/
def ListsReloaded : Prop := ∀ (w v : World) (path : List Byte) (c : Cfg) (n : Int) (e e' : Pipeline.Env) (d : List Byte), environment w path = some c →
  getB c (str "ReloadDisabledList") = some true → getI c (str "ModulesUpdateInterval") = some n → 0 < n →
  live w c [v] = some e → live v c [] = some e' → Off e' d = true → Off e d = true

/-- Not if no source of hosts is configured: then there are no updates. -/
theorem lists_reloaded_false : ¬ ListsReloaded := by
  intro h
  have h0 : ((environment (filesWorld [(str "/c", str "DisabledList /l")]) (str "/c")).bind fun c =>
      (live (filesWorld [(str "/c", str "DisabledList /l")]) c [filesWorld [(str "/l", str "a.com")]]).bind fun e =>
      (live (filesWorld [(str "/l", str "a.com")]) c []).map fun e' =>
      (Off e (str "a.com"), Off e' (str "a.com"), getB c (str "ReloadDisabledList"), getI c (str "ModulesUpdateInterval"))) =
        some (false, true, some true, some 18000) := by decide +kernel
  rw [Option.bind_eq_some_iff] at h0
  obtain ⟨c, h1, h0⟩ := h0
  rw [Option.bind_eq_some_iff] at h0
  obtain ⟨e, h2, h0⟩ := h0
  rw [Option.map_eq_some_iff] at h0
  obtain ⟨e', h3, h4⟩ := h0
  simp only [Prod.mk.injEq] at h4
  have := h _ _ _ c 18000 e e' (str "a.com") h1 h4.2.2.1 h4.2.2.2 (by decide) h2 h3 h4.2.1
  rw [h4.1] at this
  cases this

/-- With the interval -1 nothing is read again, as documented. -/
def NoneAtMinusOne : Prop := ∀ (w : World) (path : List Byte) (c : Cfg) (ws : List World) (e e' : Pipeline.Env) (d : List Byte), environment w path = some c →
  getI c (str "ModulesUpdateInterval") = some (-1) → live w c [] = some e → live w c ws = some e' → Off e d = Off e' d

/-- It is, once. -/
theorem none_at_minus_one_false : ¬ NoneAtMinusOne := by
  intro h
  have h0 : ((environment (filesWorld [(str "/c", str "Hosts h\nDisabledList /l\nModulesUpdateInterval -1")]) (str "/c")).bind fun c =>
      (live (filesWorld [(str "/c", str "Hosts h\nDisabledList /l\nModulesUpdateInterval -1")]) c []).bind fun e =>
      (live (filesWorld [(str "/c", str "Hosts h\nDisabledList /l\nModulesUpdateInterval -1")]) c [filesWorld [(str "/l", str "a.com")]]).map fun e' =>
      (Off e (str "a.com"), Off e' (str "a.com"), getI c (str "ModulesUpdateInterval"))) = some (false, true, some (-1)) := by decide +kernel
  rw [Option.bind_eq_some_iff] at h0
  obtain ⟨c, h1, h0⟩ := h0
  rw [Option.bind_eq_some_iff] at h0
  obtain ⟨e, h2, h0⟩ := h0
  rw [Option.map_eq_some_iff] at h0
  obtain ⟨e', h3, h4⟩ := h0
  simp only [Prod.mk.injEq] at h4
  have := h _ _ c _ e e' (str "a.com") h1 h4.2.2 h2 h3
  rw [h4.1, h4.2.1] at this
  cases this

/-- Updates change lists, hosts and groups; the second is done only if there is an interval. -/
example : ((environment (filesWorld [(str "/c", str "Hosts h\nDisabledList /l\nHostsDownloadPath /h\nGroupFile /g"), (str "/l", str "a.com"),
        (str "/g", str "PROTOCOL UDP\nSERVER 1.1.1.1\nPARALLEL OFF\na.com\n")]) (str "/c")).bind fun c =>
      (live (filesWorld [(str "/c", []), (str "/l", str "a.com"), (str "/g", str "PROTOCOL UDP\nSERVER 1.1.1.1\nPARALLEL OFF\na.com\n")]) c
        [filesWorld [], filesWorld [(str "/l", str "b.com"), (str "/h", str "@@ c"), (str "/g", str "PROTOCOL TCP\nSERVER 1.1.1.1\nPARALLEL OFF\na.com\n")]]).map fun e =>
      (Off e (str "a.com"), Off e (str "b.com"), e.hosts.dynamic.isSome, e.groups.modules)) = some (false, true, true, [.tcp]) := by decide +kernel

def restartConfig : World := filesWorld [(str "/c", str "Hosts h\nDisabledList /l\nHostsDownloadPath /h\nBlockIP 1.2.3.4"), (str "/l", str "a.com")]
def restartWorld : World := filesWorld [(str "/l", str "b.com"), (str "/h", str "@@ c")]

/-- The hypotheses of `as_restarted` are met. -/
example : ((environment restartConfig (str "/c")).map fun c => (scheduled restartConfig c, scheduled restartWorld c, getI c (str "ModulesUpdateInterval"))) =
      some (some true, some true, some 18000) ∧
    ((environment restartConfig (str "/c")).map fun c => (getB c (str "ReloadDisabledList"), getB c (str "ReloadGroupFile"), getB c (str "ReloadIPSubstituting"))) =
      some (some true, some true, some true) ∧
    ((environment restartConfig (str "/c")).map fun c => getRaw c (str "HostsDownloadPath")) = some (some (some (str "/h"))) ∧
    restartWorld.file (str "/h") = some (str "@@ c") ∧
    ((environment restartConfig (str "/c")).map fun c =>
      ((live restartConfig c ([filesWorld []] ++ [restartWorld])).isSome, (serve restartWorld c).isSome)) = some (true, true) := by
  refine ⟨?_, ?_, ?_, ?_, ?_⟩ <;> decide +kernel

/-! ### A sample -/

def hostsWorld (hosts : Option (List Byte)) : World :=
  { sampleWorld (str "/root") none with
    file := fun p => if p = str "/root/.dnsforwarder/config" then some (text [str "Hosts h"] []) else if p = str "/root/.dnsforwarder/hosts.txt" then hosts else none }

theorem hosts_pair {k v : List Byte} (h : Pair (str "Hosts h") k v) : k = str "Hosts" := by
  have h1 := split_of_pair h
  have h2 : splitLine (str "Hosts h") = some (str "Hosts", str "h") := by decide
  rw [h2] at h1
  simp only [Option.some.injEq, Prod.mk.injEq] at h1
  exact h1.1.symm

theorem hosts_visible {t : List Byte} (h : Visible (str "Hosts h") t) : t = str "Hosts h" :=
  visible_whole h (by decide) (by decide) (by decide)

theorem hosts_seen {ts : List (List Byte)} (h : Seen 2048 [str "Hosts h", []] ts) : ts = [str "Hosts h"] := by
  cases h with
  | blank h1 _ => exact absurd (hosts_visible h1) (by decide)
  | long h1 _ => exact absurd h1 (by decide)
  | line h1 _ h3 =>
    rw [hosts_visible h1]
    cases h3 with
    | blank _ h4 => cases h4; rfl
    | line h4 h5 _ => exact absurd (empty_visible h4) h5
    | long h4 _ => exact absurd h4 (by decide)

theorem hosts_names {dir d : List Byte} {i : Nat} {o : Opt} {p : Option (List Byte)} (h : Names (table dir) (str "Hosts") i o p d) :
    i = 22 ∧ o = ⟨false, .append, [44], .path []⟩ := by
  have := names_inj (Names.option (finds_keys (keys_eq dir) (i := 22) rfl)) h
  exact ⟨this.1.symm, this.2.1.symm⟩

theorem hosts_fits : FileFits (hostsWorld none) (str "/root/.dnsforwarder/config") (str "/root/.dnsforwarder") [str "Hosts h"] [] 0 := by
  refine ⟨by decide, fun p hp => ⟨hp, Nat.le_refl _⟩, ?_, ?_, by decide, .inl rfl, ?_, ?_⟩
  · intro s hs
    simp only [List.mem_singleton] at hs
    subst hs
    exact .inl ⟨⟨by decide, by decide, by unfold ReadLine.CrOk; decide,
      fun u r e _ => absurd (show (35 : Byte) ∈ str "Hosts h" by rw [e]; simp) (by decide)⟩, by decide⟩
  · exact ⟨by simp, by simp, by unfold ReadLine.CrOk; simp, fun u r e _ => by simp at e⟩
  · intro s hs t ht k v i o pre d old n hp hn hv _
    simp only [List.cons_append, List.nil_append, List.mem_cons, List.not_mem_nil, or_false] at hs
    rcases hs with rfl | rfl
    · rw [hosts_visible ht] at hp
      rw [hosts_pair hp] at hn
      rw [(hosts_names hn).2] at hv
      cases hv
    · rw [empty_visible ht] at hp
      obtain ⟨x, w', e, -⟩ := hp
      simp at e
  · unfold Config.Fits
    decide +kernel

theorem hosts_kept : ∀ ts tab, Seen 2048 [str "Hosts h", []] ts → Reads (fun p => p) (table (str "/root/.dnsforwarder")) ts tab →
    ∀ (i : Nat) (k : String) (o : Opt), i ≠ 22 → (table (str "/root/.dnsforwarder"))[i]? = some (str k, .opt o) → Holds tab k o.val := by
  intro ts tab h1 h2 i k o hi hk
  refine kept h2 hk (fun s hs k' v o' p d hp hn => ?_)
  rw [hosts_seen h1, List.mem_singleton] at hs
  subst hs
  rw [hosts_pair hp] at hn
  exact hi (hosts_names hn).1

theorem exclusion_lines {f : List Byte → Option (List Byte)} {p : List Byte} {ts : List (List Byte)} (hf : f p = some (str "@@ c")) (h : FileLines f 320 p ts) :
    Hosts.Lines ts [⟨str "c", .excluded, .nothing⟩] := by
  cases h with
  | missing h => rw [hf] at h; cases h
  | @read ss ts last h1 h2 =>
    rw [hf] at h1
    have h1 := Option.some.inj h1
    cases ss with
    | cons s ss => exact absurd (show (10 : Byte) ∈ str "@@ c" by rw [h1]; simp [text]) (by decide)
    | nil =>
      have : last = str "@@ c" := by rw [h1]; rfl
      subst this
      have hv : ∀ t, Visible (str "@@ c") t → t = str "@@ c" := fun t ht => visible_whole ht (by decide) (by decide) (by decide)
      cases h2 with
      | blank h3 _ => exact absurd (hv _ h3) (by decide)
      | long h3 _ => exact absurd h3 (by decide)
      | line h3 _ h4 =>
        cases h4
        rw [hv _ h3]
        exact .cons ⟨[64, 64], ⟨⟨by decide, by decide, by unfold Hosts.Blank; decide⟩, ⟨by decide, by decide, by unfold Hosts.Blank; decide⟩, [], [32], [],
          by decide, by simp, by decide, by unfold Hosts.Blank; decide, by simp⟩, .excluded⟩ .nil

theorem hosts_readable (ts : List (List Byte)) (tab : Table) (h1 : Seen 2048 ([str "Hosts h"] ++ [[]]) ts)
    (h2 : Reads (fun p => p) (table (str "/root/.dnsforwarder")) ts tab) {v : World} (hv : v = hostsWorld none ∨ v = hostsWorld (some (str "@@ c"))) :
    Readable v tab ∧ ∀ ps, Holds tab "IPSubstitutingFile" (.path ps) → ∀ p ∈ ps, ∀ content, (v.expandTo p).bind v.file = some content → TextOk 512 content := by
  have hk := hosts_kept ts tab h1 h2
  refine ⟨⟨fun l hl => ?_, fun ps hps => ?_, fun l hl => ?_, fun f l content hf hc => ?_, fun ds hds => ?_⟩, fun ps hps => ?_⟩
  · have := holds_inj hl (hk 43 "DisabledType" _ (by decide) rfl)
    injection this with this
    exact ⟨[], by rw [this]; exact .nil⟩
  · have := holds_inj hps (hk 45 "DisabledList" _ (by decide) rfl)
    injection this with this
    rw [this]
    simp
  · have := holds_inj hl (hk 26 "AppendHosts" _ (by decide) rfl)
    injection this with this
    exact ⟨[], by rw [this]; exact .nil⟩
  · have := holds_inj hf (hk 24 "HostsDownloadPath" _ (by decide) rfl)
    injection this with this
    simp only [List.cons.injEq] at this
    rw [this.1] at hc ⊢
    rcases hv with rfl | rfl
    · have hn : (hostsWorld none).file (str "/root/.dnsforwarder" ++ str "/hosts.txt") = none := by decide
      rw [hn] at hc
      cases hc
    · have hn : (hostsWorld (some (str "@@ c"))).file (str "/root/.dnsforwarder" ++ str "/hosts.txt") = some (str "@@ c") := by decide
      refine ⟨?_, fun ts ht => ⟨_, exclusion_lines hn ht⟩⟩
      rw [hn] at hc
      rw [← Option.some.inj hc]
      exact ⟨[], str "@@ c", by decide, by simp, ⟨by decide, by decide, by unfold ReadLine.CrOk; decide,
        fun u r e _ => absurd (show (35 : Byte) ∈ str "@@ c" by rw [e]; simp) (by decide)⟩, by decide, .inr ⟨64, by decide, by decide⟩⟩
  · have := holds_inj hds (hk 5 "ServerGroup" _ (by decide) rfl)
    injection this with this
    intro d hd
    have hnofile : ∀ p, d ≠ .file p := by
      rintro p rfl
      have : str "FILE" ∈ ds.flatMap Groups.Decl.tokens := List.mem_flatMap.2 ⟨_, hd, by simp [Groups.Decl.tokens]⟩
      rename_i hthis
      rw [hthis] at this
      exact absurd this (by decide)
    have hin : ∀ x ∈ d.tokens, x ∈ ["UDP", "1.2.4.8,114.114.114.114", "*", "on"].map str := by
      intro x hx
      rw [← this]
      exact List.mem_flatMap.2 ⟨d, hd, hx⟩
    have hsmall : ∀ x ∈ ["UDP", "1.2.4.8,114.114.114.114", "*", "on"].map str, (0 : Byte) ∉ x ∧ x.length ≤ 500000000 := by decide +kernel
    refine ⟨?_, fun p content hu => ?_⟩
    · cases d with
      | udp a b c => exact hsmall _ (hin b (by simp [Groups.Decl.tokens]))
      | tcp a b c e => exact hsmall _ (hin b (by simp [Groups.Decl.tokens]))
      | file p => trivial
    · rcases hu with e | ⟨q, content, ts, is, e, -⟩
      · exact absurd e (hnofile p)
      · exact absurd e (hnofile q)
  · have := holds_inj hps (hk 16 "IPSubstitutingFile" _ (by decide) rfl)
    injection this with this
    rw [this]
    simp

/-- The hypotheses of `updated_partial` are met by a small file, with an update that finds downloaded hosts and one that finds none; the hosts stay in
force. -/
example : ∃ e us tab cfg, ((environment (hostsWorld none) (str "/root/.dnsforwarder/config")).bind fun c =>
      live (hostsWorld none) c [hostsWorld (some (str "@@ c")), hostsWorld none]) = some e ∧ e.hosts.dynamic ≠ none ∧
    Due (hostsWorld none) tab [hostsWorld (some (str "@@ c")), hostsWorld none] us ∧ SourcesAfter (hostsWorld none) us tab cfg ∧ Pipeline.Configured e cfg := by
  have h0 : ((environment (hostsWorld none) (str "/root/.dnsforwarder/config")).bind fun c =>
      live (hostsWorld none) c [hostsWorld (some (str "@@ c")), hostsWorld none]).map (fun e => e.hosts.dynamic.isSome) = some true := by decide +kernel
  rw [Option.map_eq_some_iff] at h0
  obtain ⟨e, he, hd⟩ := h0
  obtain ⟨-, -, tab, us, cfg, -, -, -, h1, h2, h3, -⟩ := updated_partial (w := hostsWorld none) (path := str "/root/.dnsforwarder/config")
    ⟨⟨str "/root", rfl, by decide⟩, by decide, by decide, by decide⟩ hosts_fits (ws := [hostsWorld (some (str "@@ c")), hostsWorld none])
    (fun ts tab k1 k2 v hv => hosts_readable ts tab k1 k2 (by simp only [List.mem_cons, List.not_mem_nil, or_false] at hv; grind)) he
  exact ⟨e, us, tab, cfg, he, fun e0 => (by rw [e0] at hd; simp at hd), h1, h2, h3⟩

end Verif.Startup
