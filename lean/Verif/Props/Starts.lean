import Verif.Props.Startup
import Verif.Lemmas.ReplaceStr
/-! C117: when the program starts. -/

namespace Verif.Startup
open Config ReadLine

/-- All the values of the options are of the documented form (for the files see `Readable`), and there is a file for the hosts. -/
structure Proper (w : World) (tab : Table) : Prop extends Readable w tab where
  typesFit : ∀ l ns, Holds tab "DisabledType" (.str l) → Numbers l ns → ∀ n ∈ ns, -2147483648 ≤ n ∧ n ≤ 2147483647
  udp : ∀ l, Holds tab "UDPLocal" (.str l) → ∃ ss, Sockets l ss
  tcp : ∀ l, Holds tab "TCPLocal" (.str l) → ∃ ss, Sockets l ss
  control : ∀ l, Holds tab "CacheControl" (.str l) → ∃ ls, CacheTtl.LinesText l ls
  block : ∀ l, Holds tab "BlockIP" (.str l) → ∃ es, AllBlock l es
  subst : ∀ l, Holds tab "IPSubstituting" (.str l) → ∃ es, AllPairs l es
  substFiles : ∀ ps, Holds tab "IPSubstitutingFile" (.path ps) → ∀ p ∈ ps, ∀ content, (w.expandTo p).bind w.file = some content → TextOk 512 content
  substLines : ∀ ps tss, Holds tab "IPSubstitutingFile" (.path ps) → FilesLines (fun p => (w.expandTo p).bind w.file) 512 ps tss →
    ∃ es, AllLines tss.flatten es
  good : ∃ (lists : List GoodIpList.ListOpt) (ips : List GoodIpList.IpOpt), (∀ o ∈ lists, o.Ok) ∧ (∀ o ∈ ips, o.Ok) ∧
    Holds tab "GoodIPList" (.str (lists.map (·.text))) ∧ Holds tab "GoodIPListAddIP" (.str (ips.map (·.text)))
  download : ∀ l, Holds tab "HostsDownloadPath" (.path l) → l ≠ []
  marker : ∀ l, Holds tab "StatisticInsertionPosition" (.str l) → l ≠ []

/-- There is a place to take queries at: a UDP address that can be had, or a TCP address that can be listened on, without one before it that can be bound
and not listened on. -/
inductive Place (w : World) (tab : Table) : Prop
  | udp {l : List (List Byte)} {ss : List AddressList.Sock} {a : AddressList.Sock} : Holds tab "UDPLocal" (.str l) → Sockets l ss → a ∈ ss →
      w.udp a = true → Place w tab
  | tcp {l : List (List Byte)} {pre post : List AddressList.Sock} {a : AddressList.Sock} : Holds tab "TCPLocal" (.str l) →
      Sockets l (pre ++ a :: post) → w.tcp a = true → w.stuck a = false → (∀ b ∈ pre, w.tcp b = true → w.stuck b = false) → Place w tab

/-- The groups that are configured; `none` if that is not done properly. -/
inductive Servers (w : World) (tab : Table) : Option (List Groups.Group) → Prop
  | given {ds : List Groups.Decl} {r : Option (List Groups.Group)} : Holds tab "ServerGroup" (.str (ds.flatMap Groups.Decl.tokens)) →
      Groups.MeansAll (groupWorld w) ds r → Servers w tab r
  | odd : (∀ ds : List Groups.Decl, ¬ Holds tab "ServerGroup" (.str (ds.flatMap Groups.Decl.tokens))) → Servers w tab none

/-- There is a template for the page of statistics, with the mark where the numbers go. -/
def HasTemplate (w : World) (tab : Table) : Prop :=
  ∃ p ps m ms content pre post, Holds tab "DomainStatisticTempletFile" (.path (p :: ps)) ∧ w.file p = some content ∧ content ≠ [] ∧
    Holds tab "StatisticInsertionPosition" (.str (m :: ms)) ∧ content.takeWhile (· ≠ 0) = pre ++ m ++ post

/-- The log is off, or its file can be written, its path has fewer than 256 bytes, and the threshold is positive. -/
def LogFine (w : World) (tab : Table) : Prop :=
  Holds tab "LogOn" (.bool false) ∨ ∃ f fs n, Holds tab "LogFileFolder" (.path (f :: fs)) ∧ (f ++ str "/dnsforwarder.log").length < 256 ∧
    w.write (f ++ str "/dnsforwarder.log") = true ∧ Holds tab "LogFileThresholdLength" (.int n) ∧ 0 < n

/-- There are to be no statistics, or their interval is positive and, if there is a template, fits when counted in milliseconds, and the page can be written. -/
def StatisticFine (w : World) (tab : Table) (dir : List Byte) : Prop :=
  Holds tab "DomainStatistic" (.bool false) ∨ ∃ n, Holds tab "StatisticUpdateInterval" (.int n) ∧ 1 ≤ n ∧
    (HasTemplate w tab → n * 1000 ≤ 2147483647 ∧ w.write (dir ++ str "/statistic.html") = true)

/-- There are no hosts to be fetched, or they are not because their script or the interval for attempts is not proper, or the interval for updates fits
when counted in milliseconds. -/
def UpdatesFine (w : World) (tab : Table) : Prop :=
  Holds tab "Hosts" (.path []) ∨ (∃ s l, Holds tab "HostsScript" (.str (s :: l)) ∧ w.expandTo s = none) ∨
    (∃ n, Holds tab "HostsRetryInterval" (.int n) ∧ n < 0) ∨ ∃ n, Holds tab "ModulesUpdateInterval" (.int n) ∧ n * 1000 ≤ 2147483647

/-- What the program needs to start; `dir` is its directory. -/
structure CanStart (w : World) (tab : Table) (dir : List Byte) (servers : Option (List Groups.Group)) : Prop where
  log : LogFine w tab
  timer : w.timer = true
  statistic : StatisticFine w tab dir
  updates : UpdatesFine w tab
  place : Place w tab
  /-- The groups are complete, and each can be started. -/
  groups : ∃ gs, servers = some gs ∧ ∀ g ∈ gs, w.up g.proto g.args = true
  /-- The cache is not used, or has a size of at least 102385 and less than 2 GB, and its file, if there is to be one, can be used. -/
  cache : Holds tab "UseCache" (.bool false) ∨ ∃ n, Holds tab "CacheSize" (.int n) ∧ 102385 ≤ n ∧ n ≤ 2147483632 ∧
    (Holds tab "MemoryCache" (.bool true) ∨ w.cacheFile = true)
  /-- The worker for aliases finds a port. -/
  worker : w.inner = true

variable {w : World} {c : Cfg} {expand : List Byte → List Byte} {dir : List Byte} {ts : List (List Byte)} {tab : Table}

/-- Words that are no numbers do not keep the program from starting. -/
theorem scanTypes_words : ∀ {l : List (List Byte)}, (∀ s ∈ l, ∀ n, Number s n → -2147483648 ≤ n ∧ n ≤ 2147483647) → ∃ r, scanTypes l = some r
  | [], _ => ⟨_, rfl⟩
  | s :: l, hb => by
    obtain ⟨r, hr⟩ := scanTypes_words (l := l) fun t ht => hb t (List.mem_cons_of_mem _ ht)
    unfold scanTypes
    rcases scan_cases s with ⟨m, rest, e, hm⟩ | ⟨e, hm⟩ | ⟨e, m, hm, hn⟩ <;> rw [e] <;> dsimp only
    · exact ⟨_, by rw [hr]; rfl⟩
    · exact ⟨_, by rw [hr]; rfl⟩
    · exact (hn (hb s (by simp) m hm)).elim

theorem numbers_mem {l : List (List Byte)} {ns : List Int} (h : Numbers l ns) {s : List Byte} (hs : s ∈ l) {n : Int} (hn : Number s n) : n ∈ ns := by
  induction h with
  | nil => cases hs
  | cons h1 h2 ih =>
    rcases List.mem_cons.1 hs with rfl | hs
    · rw [number_unique hn h1]; simp
    · exact List.mem_cons_of_mem _ (ih hs)

theorem scanTypes_some {l : List (List Byte)} {ns : List Int} (h : Numbers l ns) (hb : ∀ n ∈ ns, -2147483648 ≤ n ∧ n ≤ 2147483647) :
    ∃ r, scanTypes l = some r := scanTypes_words fun _ hs _ hn => hb _ (numbers_mem h hs hn)

theorem readFile_some {n : Nat} (hn : 2 ≤ n) {content : List Byte} (ho : TextOk n content) : ∃ ls, ReadLine.readFile n content = some ls := by
  obtain ⟨ss, last, rfl, h1, h2, h3, h4⟩ := ho
  obtain ⟨ts, h5, -⟩ := ReadLine.every_line_partial n ss last hn h1 h2 h3 h4
  exact ⟨ts, h5⟩

theorem linesOf_some {n : Nat} (hn : 2 ≤ n) {ps : List (List Byte)} (ho : ∀ p ∈ ps, ∀ content, w.file p = some content → TextOk n content) :
    ∃ tss, linesOf w n ps = some tss := by
  induction ps with
  | nil => exact ⟨_, rfl⟩
  | cons p ps ih =>
    obtain ⟨tss, ht⟩ := ih fun q hq => ho q (by simp [hq])
    unfold linesOf
    rw [ht]
    cases hf : w.file p with
    | none => exact ⟨_, rfl⟩
    | some content =>
      obtain ⟨ls, hl⟩ := readFile_some hn (ho p (by simp) _ hf)
      dsimp only
      rw [hl]
      exact ⟨_, rfl⟩

theorem substFiles_some {ps : List (List Byte)} (ho : ∀ p ∈ ps, ∀ content, (w.expandTo p).bind w.file = some content → TextOk 512 content) :
    ∃ more, substFiles w ps = some more := by
  induction ps with
  | nil => exact ⟨_, rfl⟩
  | cons p ps ih =>
    obtain ⟨tss, ht⟩ := ih fun q hq => ho q (by simp [hq])
    unfold substFiles
    rw [ht]
    cases hf : (w.expandTo p).bind w.file with
    | none => exact ⟨_, rfl⟩
    | some content =>
      obtain ⟨ls, hl⟩ := readFile_some (by omega) (ho p (by simp) _ hf)
      dsimp only
      rw [hl]
      exact ⟨_, rfl⟩

theorem filter_some (hr : Reads expand (table dir) ts tab) (hs : ShowsTable c tab) (hp : Proper w tab) : ∃ f, Startup.filter w c = some f := by
  obtain ⟨types, htypes⟩ := reads_str hr 43 (k := "DisabledType") rfl
  obtain ⟨doms, hdoms⟩ := reads_str hr 44 (k := "DisabledDomain") rfl
  obtain ⟨ps, hps⟩ := reads_path hr 45 (k := "DisabledList") rfl
  obtain ⟨ns, hns⟩ := hp.types types htypes
  obtain ⟨r, h1⟩ := scanTypes_some hns (hp.typesFit types ns htypes hns)
  obtain ⟨tss, h2⟩ := linesOf_some (by omega) (hp.lists ps hps)
  unfold Startup.filter
  rw [(shown_str hs htypes).2, (shown_str hs hdoms).2, (shown_path hs hps).2, Option.bind_some, Option.bind_some]
  have e1 : ∃ x, within scanTypes (orNull types) = some x := by
    unfold orNull within
    split <;> simp_all
  have e2 : ∃ x, within (linesOf w 512) (orNull ps) = some x := by
    unfold orNull within
    split <;> simp_all
  obtain ⟨x, e1⟩ := e1
  obtain ⟨y, e2⟩ := e2
  rw [e1, e2]
  exact ⟨_, rfl⟩

theorem tdiv_size {n : Int} (h : 102385 ≤ n) : ¬ Int.tdiv (n + 15) 16 * 16 < 102400 := by
  rw [Int.tdiv_eq_ediv_of_nonneg (by omega)]
  omega

theorem tdiv_small {n : Int} (h : n < 102385) : Int.tdiv (n + 15) 16 * 16 < 102400 := by
  by_cases hp : 0 ≤ n + 15
  · rw [Int.tdiv_eq_ediv_of_nonneg hp]
    omega
  · have := Int.tdiv_nonneg (a := -(n + 15)) (b := 16) (by omega) (by omega)
    rw [Int.neg_tdiv] at this
    omega

theorem cache_iff (hr : Reads expand (table dir) ts tab) (hs : ShowsTable c tab) (hp : Proper w tab) :
    (∃ x, Startup.cache w c = some x) ↔ (Holds tab "UseCache" (.bool false) ∨ ∃ n, Holds tab "CacheSize" (.int n) ∧ 102385 ≤ n ∧ n ≤ 2147483632 ∧
      (Holds tab "MemoryCache" (.bool true) ∨ w.cacheFile = true)) := by
  obtain ⟨n, hn⟩ := reads_int hr 34 (k := "CacheSize") rfl
  obtain ⟨use, huse⟩ := reads_bool hr 32 (k := "UseCache") rfl
  obtain ⟨par, hpar⟩ := reads_bool hr 33 (k := "CacheParallel") rfl
  obtain ⟨ign, hign⟩ := reads_bool hr 37 (k := "IgnoreTTL") rfl
  obtain ⟨ov, hov⟩ := reads_int hr 38 (k := "OverrideTTL") rfl
  obtain ⟨mu, hmu⟩ := reads_int hr 39 (k := "MultipleTTL") rfl
  obtain ⟨ctl, hctl⟩ := reads_str hr 40 (k := "CacheControl") rfl
  obtain ⟨mem, hmem⟩ := reads_bool hr 35 (k := "MemoryCache") rfl
  obtain ⟨ls, hls⟩ := hp.control ctl hctl
  unfold Startup.cache
  rw [shown_int hs hn, shown_bool hs huse, shown_bool hs hpar, shown_bool hs hign, shown_int hs hov, shown_int hs hmu, (shown_str hs hctl).2,
    shown_bool hs hmem]
  dsimp only
  cases use with
  | false => exact ⟨fun _ => .inl huse, fun _ => ⟨_, if_pos rfl⟩⟩
  | true =>
    have hno : ¬ Holds tab "UseCache" (.bool false) := fun h => by
      have := holds_inj h huse
      injection this with this
      cases this
    rw [if_neg (by simp), CacheTtl.initRules_eq (lines := orNull ctl) (by rw [orNull_getD]; exact hls) ov mu]
    dsimp only
    constructor
    · rintro ⟨x, hx⟩
      split at hx
      · cases hx
      · rename_i h1
        split at hx
        · cases hx
        · rename_i h2
          split at hx
          · cases hx
          · rename_i h3
            refine .inr ⟨n, hn, ?_, by omega, ?_⟩
            · false_or_by_contra
              rename_i hlt
              exact h2 (tdiv_small (by omega))
            · cases mem with
              | true => exact .inl hmem
              | false =>
                refine .inr ?_
                cases hc : w.cacheFile with
                | true => rfl
                | false => exact absurd ⟨rfl, hc⟩ h3
    · rintro (h | ⟨m, hm, h1, h2, h3⟩)
      · exact absurd h hno
      · have e := holds_inj hm hn
        injection e with e
        subst e
        rw [if_neg (by omega), if_neg (tdiv_size h1), if_neg]
        · exact ⟨_, rfl⟩
        · rintro ⟨a, b⟩
          rcases h3 with h3 | h3
          · have e := holds_inj h3 hmem
            injection e with e
            rw [a] at e
            cases e
          · rw [b] at h3
            cases h3

theorem ranges_ok {t : List (List Byte)} {es : List IpChunk.Entry} (h : AllBlock t es) : ∀ e ∈ es, IpChunk.RangeText e.text e.range := by
  induction h with
  | nil => simp
  | cons h1 _ ih =>
    intro e he
    rcases List.mem_cons.1 he with rfl | he
    · obtain ⟨a, b, -⟩ := h1
      rw [a]
      exact b
    · exact ih e he

theorem pairs_ok {t : List (List Byte)} {es : List IpChunk.Entry} (h : AllPairs t es) : ∀ e ∈ es, IpChunk.RangeText e.text e.range := by
  induction h with
  | nil => simp
  | odd => simp
  | cons h1 _ ih =>
    intro e he
    rcases List.mem_cons.1 he with rfl | he
    · obtain ⟨a, b, -⟩ := h1
      rw [a]
      exact b
    · exact ih e he

theorem lines_ok {t : List (List Byte)} {es : List IpChunk.Entry} (h : AllLines t es) : ∀ e ∈ es, IpChunk.RangeText e.text e.range := by
  induction h with
  | nil => simp
  | word _ _ _ _ ih => exact ih
  | cons _ _ _ _ _ _ h1 _ ih =>
    intro e he
    rcases List.mem_cons.1 he with rfl | he
    · obtain ⟨a, b, -⟩ := h1
      rw [a]
      exact b
    · exact ih e he

theorem misc_some (hr : Reads expand (table dir) ts tab) (hs : ShowsTable c tab) (hp : Proper w tab) : ∃ x, Startup.misc w c = some x := by
  obtain ⟨block, hblock⟩ := reads_str hr 13 (k := "BlockIP") rfl
  obtain ⟨subst, hsubst⟩ := reads_str hr 15 (k := "IPSubstituting") rfl
  obtain ⟨files, hfiles⟩ := reads_path hr 16 (k := "IPSubstitutingFile") rfl
  obtain ⟨neg, hneg⟩ := reads_bool hr 17 (k := "BlockNegativeResponse") rfl
  unfold Startup.misc
  rw [(shown_str hs hblock).2, (shown_str hs hsubst).2, (shown_path hs hfiles).2, shown_bool hs hneg]
  dsimp only
  rw [orNull_getD, orNull_getD, orNull_getD]
  split
  · exact ⟨_, rfl⟩
  · obtain ⟨more, hm⟩ := substFiles_some (hp.substFiles files hfiles)
    rw [hm]
    dsimp only
    obtain ⟨tss, k1, k2⟩ := substFiles_lines (hp.substFiles files hfiles) hm
    obtain ⟨e1, h1⟩ := hp.block block hblock
    obtain ⟨e2, h2⟩ := hp.subst subst hsubst
    obtain ⟨e3, h3⟩ := hp.substLines files tss hfiles k1
    have hsay : AllSay (block.map .block ++ pairs subst ++ more) (e1 ++ e2 ++ e3) :=
      allSay_append (allSay_append (allSay_block h1) (allSay_pairs h2)) (by rw [k2]; exact allSay_lines h3)
    rw [load_build hsay, IpChunk.build_eq _ (fun e he => by
      rcases List.mem_append.1 he with he | he
      · rcases List.mem_append.1 he with he | he
        · exact ranges_ok h1 e he
        · exact pairs_ok h2 e he
      · exact lines_ok h3 e he)]
    exact ⟨_, rfl⟩

theorem static_some (hr : Reads expand (table dir) ts tab) (hs : ShowsTable c tab) (hp : Proper w tab) : ∃ x, staticHosts c = some x := by
  obtain ⟨l, hl⟩ := reads_str hr 26 (k := "AppendHosts") rfl
  obtain ⟨es, hes⟩ := hp.static l hl
  obtain ⟨x, hx, -⟩ := Hosts.lines_taken hes
  unfold staticHosts
  rw [(shown_str hs hl).2, Option.bind_some]
  unfold orNull within
  split <;> simp_all

theorem dynamic_iff (hr : Reads expand (table dir) ts tab) (hs : ShowsTable c tab) (hp : Proper w tab) :
    (∃ x, dynamicHosts w c = some x) ↔ UpdatesFine w tab := by
  obtain ⟨hosts, hhosts⟩ := reads_path hr 22 (k := "Hosts") rfl
  obtain ⟨script, hscript⟩ := reads_str hr 25 (k := "HostsScript") rfl
  obtain ⟨path, hpath⟩ := reads_path hr 24 (k := "HostsDownloadPath") rfl
  obtain ⟨retry, hretry⟩ := reads_int hr 23 (k := "HostsRetryInterval") rfl
  obtain ⟨interval, hinterval⟩ := reads_int hr 28 (k := "ModulesUpdateInterval") rfl
  unfold dynamicHosts getRaw
  rw [(shown_path hs hhosts).2, (shown_str hs hscript).1, (shown_path hs hpath).1, shown_int hs hretry, shown_int hs hinterval]
  dsimp only [Option.map_some]
  split
  · rename_i e
    rw [orNull_none] at e
    subst e
    exact ⟨fun _ => .inl hhosts, fun _ => ⟨_, rfl⟩⟩
  · rename_i e0
    rw [orNull_none] at e0
    split
    · rename_i e1
      refine ⟨fun _ => .inr (.inl ?_), fun _ => ⟨_, rfl⟩⟩
      cases script with
      | nil => simp at e1
      | cons s l => exact ⟨s, l, hscript, by simpa using e1⟩
    · rename_i e1
      split
      · rename_i e2
        exact ⟨fun _ => .inr (.inr (.inl ⟨_, hretry, e2⟩)), fun _ => ⟨_, rfl⟩⟩
      · rename_i e2
        split
        · rename_i e3
          refine ⟨fun ⟨_, hx⟩ => (nomatch hx), ?_⟩
          rintro (h | ⟨s, l, h, h'⟩ | ⟨n, h, h'⟩ | ⟨n, h, h'⟩)
          · have e := holds_inj h hhosts
            injection e with e
            exact absurd e.symm e0
          · have e := holds_inj h hscript
            injection e with e
            rw [← e] at e1
            simp [h'] at e1
          · have e := holds_inj h hretry
            injection e with e
            omega
          · have e := holds_inj h hinterval
            injection e with e
            omega
        · rename_i e3
          refine ⟨fun _ => .inr (.inr (.inr ⟨_, hinterval, by omega⟩)), fun _ => ?_⟩
          cases path with
          | nil => exact absurd rfl (hp.download [] hpath)
          | cons f l =>
            dsimp only [List.head?_cons]
            cases hf : w.file f with
            | none => exact ⟨_, rfl⟩
            | some content =>
              dsimp only
              obtain ⟨k1, k2⟩ := hp.dynamic f l content hpath hf
              obtain ⟨ls, hls⟩ := readFile_some (by omega) k1
              obtain ⟨es, k3⟩ := k2 ls (readFile_seen (by omega) hf k1 hls)
              obtain ⟨x, hx, -⟩ := Hosts.lines_taken k3
              rw [hls, Option.bind_some, hx]
              exact ⟨_, rfl⟩

theorem logs_iff (hr : Reads expand (table dir) ts tab) (hs : ShowsTable c tab) : logs w c = true ↔ LogFine w tab := by
  obtain ⟨on, hon⟩ := reads_bool hr 0 (k := "LogOn") rfl
  obtain ⟨n, hn⟩ := reads_int hr 1 (k := "LogFileThresholdLength") rfl
  obtain ⟨folder, hfolder⟩ := reads_path hr 2 (k := "LogFileFolder") rfl
  unfold logs getRaw
  rw [shown_bool hs hon, (shown_path hs hfolder).1, shown_int hs hn]
  cases on with
  | false => exact ⟨fun _ => .inl hon, fun _ => rfl⟩
  | true =>
    have hno : ¬ Holds tab "LogOn" (.bool false) := fun h => by
      have e := holds_inj h hon
      injection e with e
      cases e
    cases folder with
    | nil =>
      refine ⟨fun h => (nomatch h), ?_⟩
      rintro (h | ⟨f, fs, n', h, -⟩)
      · exact absurd h hno
      · have e := holds_inj h hfolder
        injection e with e
        cases e
    | cons f fs =>
      dsimp only [Option.map_some, List.head?_cons]
      have hl : (str "/dnsforwarder.log").length = 17 := by decide
      simp only [Bool.and_eq_true, decide_eq_true_eq]
      constructor
      · rintro ⟨⟨h1, h2⟩, h3⟩
        exact .inr ⟨f, fs, n, hfolder, by rw [List.length_append, hl]; exact h1, h2, hn, h3⟩
      · rintro (h | ⟨f', fs', n', h1, h2, h3, h4, h5⟩)
        · exact absurd h hno
        · have e := holds_inj h1 hfolder
          injection e with e
          have e' := holds_inj h4 hn
          injection e' with e'
          cases e
          cases e'
          rw [List.length_append, hl] at h2
          exact ⟨⟨h2, h3⟩, h5⟩

theorem template_parts {content m : List Byte} (hc : content ≠ []) :
    (∃ pre post, StatPage.template content.length (some content) m = .parts pre post ∧ ∃ pre post, content.takeWhile (· ≠ 0) = pre ++ m ++ post) ∨
    (StatPage.template content.length (some content) m = .unusable ∧ ¬ ∃ pre post, content.takeWhile (· ≠ 0) = pre ++ m ++ post) := by
  unfold StatPage.template
  rw [if_neg (by simpa using hc)]
  dsimp only
  rw [if_neg (by omega)]
  cases h : ReplaceStr.strstr m (content.takeWhile (· ≠ 0)) with
  | none =>
    refine .inr ⟨rfl, ?_⟩
    rintro ⟨pre, post, e⟩
    exact ReplaceStr.strstr_none.1 h pre.length ⟨pre, post, by rw [← List.append_assoc]; exact e, rfl⟩
  | some k =>
    obtain ⟨e, -⟩ := ReplaceStr.strstr_split h
    exact .inl ⟨_, _, rfl, _, _, by rw [List.append_assoc]; exact e⟩

theorem statistic_iff (hr : Reads expand (table dir) ts tab) (hs : ShowsTable c tab) (hp : Proper w tab) (hd : configDir w.home = some dir) :
    Startup.statistic w c = true ↔ StatisticFine w tab dir := by
  obtain ⟨on, hon⟩ := reads_bool hr 18 (k := "DomainStatistic") rfl
  obtain ⟨n, hn⟩ := reads_int hr 21 (k := "StatisticUpdateInterval") rfl
  obtain ⟨path, hpath⟩ := reads_path hr 19 (k := "DomainStatisticTempletFile") rfl
  obtain ⟨mark, hmark⟩ := reads_str hr 20 (k := "StatisticInsertionPosition") rfl
  unfold Startup.statistic getRaw
  rw [shown_bool hs hon, shown_int hs hn, (shown_path hs hpath).1, (shown_str hs hmark).1, hd]
  cases on with
  | false => exact ⟨fun _ => .inl hon, fun _ => rfl⟩
  | true =>
    have hno : ¬ Holds tab "DomainStatistic" (.bool false) := fun h => by
      have e := holds_inj h hon
      injection e with e
      cases e
    have hfine : StatisticFine w tab dir ↔ 1 ≤ n ∧ (HasTemplate w tab → n * 1000 ≤ 2147483647 ∧ w.write (dir ++ str "/statistic.html") = true) := by
      constructor
      · rintro (h | ⟨n', h1, h2, h3⟩)
        · exact absurd h hno
        · have e := holds_inj h1 hn
          injection e with e
          subst e
          exact ⟨h2, h3⟩
      · exact fun h => .inr ⟨n, hn, h.1, h.2⟩
    rw [hfine]
    dsimp only [Option.map_some]
    split
    · rename_i h1
      exact ⟨fun h => (nomatch h), fun h => by omega⟩
    · rename_i h1
      cases path with
      | nil =>
        refine ⟨fun _ => ⟨by omega, ?_⟩, fun _ => rfl⟩
        rintro ⟨p, ps, m, ms, content, pre, post, t1, -⟩
        have e := holds_inj t1 hpath
        injection e with e
        cases e
      | cons p ps =>
        dsimp only [List.head?_cons, Option.bind_some]
        cases hf : w.file p with
        | none =>
          refine ⟨fun _ => ⟨by omega, ?_⟩, fun _ => rfl⟩
          rintro ⟨p', ps', m, ms, content, pre, post, t1, t2, -⟩
          have e := holds_inj t1 hpath
          injection e with e
          cases e
          rw [hf] at t2
          cases t2
        | some content =>
          dsimp only
          split
          · rename_i hc
            refine ⟨fun _ => ⟨by omega, ?_⟩, fun _ => rfl⟩
            rintro ⟨p', ps', m, ms, content', pre, post, t1, t2, t3, -⟩
            have e := holds_inj t1 hpath
            injection e with e
            cases e
            rw [hf] at t2
            cases t2
            exact absurd hc t3
          · rename_i hc
            cases mark with
            | nil => exact absurd rfl (hp.marker [] hmark)
            | cons m ms =>
              dsimp only [List.head?_cons]
              have ht : HasTemplate w tab ↔ ∃ pre post, content.takeWhile (· ≠ 0) = pre ++ m ++ post := by
                constructor
                · rintro ⟨p', ps', m', ms', content', pre, post, t1, t2, t3, t4, t5⟩
                  have e := holds_inj t1 hpath
                  injection e with e
                  have e' := holds_inj t4 hmark
                  injection e' with e'
                  cases e
                  cases e'
                  rw [hf] at t2
                  cases t2
                  exact ⟨_, _, t5⟩
                · rintro ⟨pre, post, e⟩
                  exact ⟨p, ps, m, ms, content, pre, post, hpath, hf, hc, hmark, e⟩
              rw [ht]
              rcases template_parts (m := m) hc with ⟨pre, post, t1, t2⟩ | ⟨t1, t2⟩
              · rw [t1]
                simp only [Bool.and_eq_true, decide_eq_true_eq]
                exact ⟨fun h => ⟨by omega, fun _ => ⟨by omega, h.1⟩⟩, fun h => ⟨(h.2 t2).2, by have := (h.2 t2).1; omega⟩⟩
              · rw [t1]
                exact ⟨fun _ => ⟨by omega, fun h => absurd h t2⟩, fun _ => rfl⟩

theorem goodIp_some (hs : ShowsTable c tab) (hp : Proper w tab) : ∃ names ips x, getS c (str "GoodIPList") = some names ∧
    getS c (str "GoodIPListAddIP") = some ips ∧ GoodIpList.load bkdrHash names ips = some x := by
  obtain ⟨lists, ips, hl, hi, h1, h2⟩ := hp.good
  obtain ⟨st, tasks, k1, -⟩ := GoodIpList.hands_out_configured_partial bkdrHash lists ips hl hi
  have key : ∃ x, GoodIpList.load bkdrHash (orNull (lists.map (·.text))) (orNull (ips.map (·.text))) = some x := by
    unfold GoodIpList.load at k1 ⊢
    by_cases hln : lists.map (·.text) = []
    · rw [hln]
      exact ⟨_, rfl⟩
    · have a1 : orNull (lists.map (·.text)) = some (lists.map (·.text)) := by unfold orNull; rw [if_neg hln]
      rw [a1]
      cases hx : GoodIpList.initLists bkdrHash (some (lists.map (·.text))) with
      | none => rw [hx] at k1; cases k1
      | some o =>
        rw [hx] at k1
        cases o with
        | none => exact ⟨_, rfl⟩
        | some st0 =>
          dsimp only at k1 ⊢
          by_cases hin : ips.map (·.text) = []
          · rw [hin]
            exact ⟨_, rfl⟩
          · have a2 : orNull (ips.map (·.text)) = some (ips.map (·.text)) := by unfold orNull; rw [if_neg hin]
            rw [a2]
            exact ⟨_, k1⟩
  obtain ⟨x, hx⟩ := key
  exact ⟨_, _, x, (shown_str hs h1).2, (shown_str hs h2).2, hx⟩

theorem listen_key (hi : AddressList.InetOk w.inet) (ok stuck : AddressList.Sock → Bool) {l : List (List Byte)} {ss : List AddressList.Sock}
    (hl : Sockets l ss) : listen w ok stuck l = some ((ss.filter ok).takeWhile (fun a => !stuck a)) := by
  induction hl with
  | nil => rfl
  | @cons s a f p ts ss h1 h2 ih =>
    unfold listen
    rw [AddressList.understood w.inet hi 53 s a f p h1]
    dsimp only
    rw [ih, List.filter_cons]
    split
    · rw [List.takeWhile_cons]
      split <;> simp_all
    · rfl

theorem sockets_inj {l : List (List Byte)} {ss ss' : List AddressList.Sock} (hi : AddressList.InetOk w.inet) (h : Sockets l ss) (h' : Sockets l ss') : ss = ss' := by
  have e := listen_key hi (fun _ => true) (fun _ => false) h
  rw [listen_key hi (fun _ => true) (fun _ => false) h', takeWhile_yes, takeWhile_yes] at e
  have e := Option.some.inj e
  rw [List.filter_eq_self.2 (by simp), List.filter_eq_self.2 (by simp)] at e
  exact e.symm

/-- The first address that can be bound can also be listened on. -/
theorem first_free (ok stuck : AddressList.Sock → Bool) (l : List AddressList.Sock) :
    (l.filter ok).takeWhile (fun a => !stuck a) ≠ [] ↔
      ∃ pre a post, l = pre ++ a :: post ∧ ok a = true ∧ stuck a = false ∧ ∀ b ∈ pre, ok b = true → stuck b = false := by
  induction l with
  | nil => simp
  | cons x l ih =>
    rw [List.filter_cons]
    cases ho : ok x with
    | false =>
      simp only [Bool.false_eq_true, if_false]
      rw [ih]
      constructor
      · rintro ⟨pre, a, post, rfl, h1, h2, h3⟩
        refine ⟨x :: pre, a, post, rfl, h1, h2, fun b hb hok => ?_⟩
        rcases List.mem_cons.1 hb with rfl | hb
        · rw [ho] at hok; cases hok
        · exact h3 b hb hok
      · rintro ⟨pre, a, post, e, h1, h2, h3⟩
        cases pre with
        | nil =>
          simp only [List.nil_append, List.cons.injEq] at e
          rw [← e.1, ho] at h1
          cases h1
        | cons y pre =>
          simp only [List.cons_append, List.cons.injEq] at e
          exact ⟨pre, a, post, e.2, h1, h2, fun b hb => h3 b (by simp [hb])⟩
    | true =>
      simp only [if_true, List.takeWhile_cons]
      cases hst : stuck x with
      | false =>
        simp only [Bool.not_false, if_true, ne_eq, reduceCtorEq, not_false_eq_true, true_iff]
        exact ⟨[], x, l, rfl, ho, hst, by simp⟩
      | true =>
        simp only [Bool.not_true, Bool.false_eq_true, if_false, ne_eq, not_true, false_iff]
        rintro ⟨pre, a, post, e, h1, h2, h3⟩
        cases pre with
        | nil =>
          simp only [List.nil_append, List.cons.injEq] at e
          rw [← e.1, hst] at h2
          cases h2
        | cons y pre =>
          simp only [List.cons_append, List.cons.injEq] at e
          have := h3 y (by simp) (by rw [← e.1]; exact ho)
          rw [← e.1, hst] at this
          cases this

theorem place_iff (hr : Reads expand (table dir) ts tab) (hs : ShowsTable c tab) (hp : Proper w tab) (hi : AddressList.InetOk w.inet) :
    ∃ u t us tcps, getS c (str "UDPLocal") = some u ∧ getS c (str "TCPLocal") = some t ∧ listen w w.udp (fun _ => false) (u.getD []) = some us ∧
      listen w w.tcp w.stuck (t.getD []) = some tcps ∧ (¬ (us = [] ∧ tcps = []) ↔ Place w tab) := by
  obtain ⟨u, hu⟩ := reads_str hr 3 (k := "UDPLocal") rfl
  obtain ⟨t, ht⟩ := reads_str hr 4 (k := "TCPLocal") rfl
  obtain ⟨ss, hss⟩ := hp.udp u hu
  obtain ⟨tt, htt⟩ := hp.tcp t ht
  refine ⟨_, _, _, _, (shown_str hs hu).2, (shown_str hs ht).2, by rw [orNull_getD]; exact listen_key hi _ _ hss,
    by rw [orNull_getD]; exact listen_key hi _ _ htt, ?_⟩
  rw [takeWhile_yes]
  constructor
  · intro h
    by_cases h1 : ss.filter w.udp = []
    · obtain ⟨pre, a, post, rfl, h2, h3, h4⟩ := (first_free w.tcp w.stuck tt).1 fun h2 => h ⟨h1, h2⟩
      exact .tcp ht htt h2 h3 h4
    · obtain ⟨a, ha⟩ := List.exists_mem_of_ne_nil _ h1
      obtain ⟨ha, hok⟩ := List.mem_filter.1 ha
      exact .udp hu hss ha hok
  · rintro (⟨h1, h2, h3, h4⟩ | ⟨h1, h2, h3, h4, h5⟩) ⟨e1, e2⟩
    · have e := holds_inj h1 hu
      injection e with e
      subst e
      rw [sockets_inj hi h2 hss] at h3
      have : _ ∈ ss.filter w.udp := List.mem_filter.2 ⟨h3, h4⟩
      rw [e1] at this
      cases this
    · have e := holds_inj h1 ht
      injection e with e
      subst e
      have := sockets_inj hi h2 htt
      subst this
      exact (first_free w.tcp w.stuck _).2 ⟨_, _, _, rfl, h3, h4, h5⟩ e2

theorem groups_iff (hr : Reads expand (table dir) ts tab) (hs : ShowsTable c tab) (hp : Proper w tab) :
    ∃ conf r, getS c (str "ServerGroup") = some conf ∧ Servers w tab r ∧ ((∃ m, Groups.load (groupWorld w) (conf.getD []) = some m) ↔
      ∃ gs, r = some gs ∧ ∀ g ∈ gs, w.up g.proto g.args = true) := by
  obtain ⟨l, hl⟩ := reads_str hr 5 (k := "ServerGroup") rfl
  by_cases hd : ∃ ds : List Groups.Decl, l = ds.flatMap Groups.Decl.tokens
  · obtain ⟨ds, rfl⟩ := hd
    have hg := hp.groups ds hl
    obtain ⟨r, h1, h2⟩ := Groups.load_partial (groupWorld w) ds (fun d hd => (hg d hd).2) (fun d hd => (hg d hd).1)
    refine ⟨_, r, (shown_str hs hl).2, .given hl h1, ?_⟩
    rw [orNull_getD, ← Option.isSome_iff_exists]
    exact h2
  · refine ⟨_, none, (shown_str hs hl).2, .odd fun ds h => hd ⟨ds, ?_⟩, ?_⟩
    · have e := holds_inj h hl
      injection e with e
      exact e.symm
    · rw [orNull_getD]
      constructor
      · rintro ⟨m, hm⟩
        exact (hd (Groups.load_shape _ _ (by rw [hm]; rfl))).elim
      · rintro ⟨gs, h, -⟩
        cases h

theorem load_iff (hr : Reads expand (table dir) ts tab) (hs : ShowsTable c tab) (hp : Proper w tab) :
    ∃ r, Servers w tab r ∧ ((∃ e, Startup.load w c = some e) ↔ (∃ gs, r = some gs ∧ ∀ g ∈ gs, w.up g.proto g.args = true) ∧
      (Holds tab "UseCache" (.bool false) ∨ ∃ n, Holds tab "CacheSize" (.int n) ∧ 102385 ≤ n ∧ n ≤ 2147483632 ∧
        (Holds tab "MemoryCache" (.bool true) ∨ w.cacheFile = true)) ∧ w.inner = true ∧ UpdatesFine w tab) := by
  obtain ⟨u, hu⟩ := reads_bool hr 10 (k := "EnableUDPtoTCP") rfl
  obtain ⟨t, ht⟩ := reads_bool hr 11 (k := "EnableTCPtoUDP") rfl
  obtain ⟨ap, hap⟩ := reads_bool hr 14 (k := "AP") rfl
  obtain ⟨six, hsix⟩ := reads_bool hr 27 (k := "BlockIpv6WhenIpv4Exists") rfl
  obtain ⟨conf, r, g1, g2, g3⟩ := groups_iff hr hs hp
  obtain ⟨f, hf⟩ := filter_some hr hs hp
  obtain ⟨⟨li, ne⟩, hm⟩ := misc_some hr hs hp
  obtain ⟨st, hst⟩ := static_some hr hs hp
  obtain ⟨names, ips, ⟨good, tasks⟩, n1, n2, n3⟩ := goodIp_some hs hp
  refine ⟨r, g2, ?_⟩
  rw [← g3, ← cache_iff hr hs hp, ← dynamic_iff hr hs hp]
  unfold Startup.load
  rw [shown_bool hs hu, shown_bool hs ht, shown_bool hs hap, shown_bool hs hsix, g1, hf, hm, hst, n1, n2]
  dsimp only [groupWorld]
  cases hgl : Groups.load ⟨w.up, fun p => (w.expandTo p).map w.file⟩ (conf.getD []) with
  | none => simp
  | some gs =>
    cases hc : Startup.cache w c with
    | none => simp
    | some x =>
      obtain ⟨on, settings⟩ := x
      cases hdy : dynamicHosts w c with
      | none => simp
      | some dy =>
        dsimp only
        rw [n3]
        dsimp only
        cases w.inner <;> simp

theorem serve_iff (hr : Reads expand (table dir) ts tab) (hs : ShowsTable c tab) (hp : Proper w tab) (hi : AddressList.InetOk w.inet)
    (hd : configDir w.home = some dir) :
    ∃ servers, Servers w tab servers ∧ ((∃ r, serve w c = some r) ↔ CanStart w tab dir servers) := by
  obtain ⟨r, l1, l2⟩ := load_iff hr hs hp
  refine ⟨r, l1, ?_⟩
  obtain ⟨u, t, us, tcps, p1, p2, p3, p4, p5⟩ := place_iff hr hs hp hi
  have hlog := logs_iff (w := w) hr hs
  have hstat := statistic_iff hr hs hp hd
  unfold serve
  rw [p1, p2]
  dsimp only
  rw [p3, p4]
  dsimp only
  constructor
  · rintro ⟨x, hx⟩
    split at hx
    · cases hx
    · rename_i hfirst
      split at hx
      · cases hx
      · rename_i hne
        obtain ⟨e, he, -⟩ := Option.map_eq_some_iff.1 hx
        obtain ⟨a, b, d, f⟩ := l2.1 ⟨e, he⟩
        simp only [not_or, Bool.not_eq_false] at hfirst
        exact ⟨hlog.1 hfirst.1, hfirst.2.1, hstat.1 hfirst.2.2, f, p5.1 hne, a, b, d⟩
  · rintro ⟨k1, k2, k3, k4, a, b, d, e⟩
    rw [if_neg (by rw [hlog.2 k1, k2, hstat.2 k3]; simp), if_neg (p5.2 a)]
    obtain ⟨x, hx⟩ := l2.2 ⟨b, d, e, k4⟩
    rw [hx]
    exact ⟨_, rfl⟩

/-- C117.  Whatever flags are given and whatever the configuration file holds, the program starts exactly if it has a place to take queries at, the groups
are complete and can be started, the size of the cache is right and its file can be used, the worker for aliases finds a port, the timer has its pipe, and what is
said of the log, the statistics and the updates of the hosts can be done.
Missing: see `started_partial`; values that are not of the documented form (`Proper`). -/
theorem starts_partial {w : World} {as : List Arg} (ha : ∀ a ∈ as, a.Ok) {path dir : List Byte} (hp : ConfigFile w as path) (hh : Home w dir)
    {ss : List (List Byte)} {last : List Byte} {E : Nat} (hf : FileFits w path dir ss last E) (hi : AddressList.InetOk w.inet)
    (hw : ∀ ts tab, Seen 2048 (ss ++ [last]) ts → Reads (w.expand (dir ++ str "/") (directoryOf path)) (table dir) ts tab → Proper w tab) :
    ∃ ts tab servers, Seen 2048 (ss ++ [last]) ts ∧ Reads (w.expand (dir ++ str "/") (directoryOf path)) (table dir) ts tab ∧
      Servers w tab servers ∧ ((∃ r, main w (as.flatMap Arg.words) = some r) ↔ CanStart w tab dir servers) := by
  rw [main_serves ha hp]
  obtain ⟨c, ts, tab, h1, h2, h3, h4⟩ := options_partial hh hf
  obtain ⟨r, h5, h6⟩ := serve_iff h3 h4 (hw ts tab h2 h3) hi (configDir_home hh)
  refine ⟨ts, tab, r, h2, h3, h5, ?_⟩
  rw [h1, Option.bind_some]
  exact h6

/-- The defaults are of the documented form. -/
theorem proper_defaults {w : World} {dir : List Byte} {tab : Table} (hn : w.file (dir ++ str "/hosts.txt") = none)
    (hk : ∀ (i : Nat) (k : String) (o : Opt), i ≠ 14 ∧ i ≠ 22 → (table dir)[i]? = some (str k, .opt o) → Holds tab k o.val) : Proper w tab := by
  have hstr : ∀ {i : Nat} {k : String} {o : Opt} {l l' : List (List Byte)}, i ≠ 14 ∧ i ≠ 22 → (table dir)[i]? = some (str k, .opt o) → o.val = .str l' →
      Holds tab k (.str l) → l = l' := by
    intro i k o l l' h1 h2 h3 h4
    have := holds_inj h4 (hk i k o h1 h2)
    rw [h3] at this
    injection this
  have hpath : ∀ {i : Nat} {k : String} {o : Opt} {l l' : List (List Byte)}, i ≠ 14 ∧ i ≠ 22 → (table dir)[i]? = some (str k, .opt o) → o.val = .path l' →
      Holds tab k (.path l) → l = l' := by
    intro i k o l l' h1 h2 h3 h4
    have := holds_inj h4 (hk i k o h1 h2)
    rw [h3] at this
    injection this
  refine { types := ?_, lists := ?_, static := ?_, dynamic := ?_, groups := ?_, typesFit := ?_, udp := ?_, tcp := ?_, control := ?_, block := ?_,
           subst := ?_, substFiles := ?_, substLines := ?_, good := ?_, download := ?_, marker := ?_ }
  · intro l hl
    rw [hstr (i := 43) (k := "DisabledType") (by decide) rfl rfl hl]
    exact ⟨[], .nil⟩
  · intro ps hps
    rw [hpath (i := 45) (k := "DisabledList") (by decide) rfl rfl hps]
    simp
  · intro l hl
    rw [hstr (i := 26) (k := "AppendHosts") (by decide) rfl rfl hl]
    exact ⟨[], .nil⟩
  · intro f l content hf hc
    have := hpath (i := 24) (k := "HostsDownloadPath") (by decide) rfl rfl hf
    simp only [List.cons.injEq] at this
    rw [this.1, hn] at hc
    cases hc
  · intro ds hds
    have := hstr (i := 5) (k := "ServerGroup") (by decide) rfl rfl hds
    intro d hd
    have hnofile : ∀ p, d ≠ .file p := by
      rintro p rfl
      have hthis : str "FILE" ∈ ds.flatMap Groups.Decl.tokens := List.mem_flatMap.2 ⟨_, hd, by simp [Groups.Decl.tokens]⟩
      rw [this] at hthis
      exact absurd hthis (by decide)
    have hin : ∀ x ∈ d.tokens, x ∈ ["UDP", "1.2.4.8,114.114.114.114", "*", "on"].map str := by
      intro x hx
      rw [← this]
      exact List.mem_flatMap.2 ⟨d, hd, hx⟩
    have hsmall : ∀ x ∈ ["UDP", "1.2.4.8,114.114.114.114", "*", "on"].map str, (0 : Byte) ∉ x ∧ x.length ≤ 500000000 := by decide +kernel
    refine ⟨?_, fun p content hu => ?_⟩
    · cases d with
      | udp a b c => exact hsmall _ (hin b (by simp [Groups.Decl.tokens]))
      | tcp a b c e => exact hsmall _ (hin b (by simp [Groups.Decl.tokens]))
      | file p => trivial
    · rcases hu with e | ⟨q, content, ts, is, e, -⟩
      · exact absurd e (hnofile p)
      · exact absurd e (hnofile q)
  · intro l ns hl hns
    rw [hstr (i := 43) (k := "DisabledType") (by decide) rfl rfl hl] at hns
    cases hns
    simp
  · intro l hl
    rw [hstr (i := 3) (k := "UDPLocal") (by decide) rfl rfl hl]
    exact ⟨_, .cons loopback .nil⟩
  · intro l hl
    rw [hstr (i := 4) (k := "TCPLocal") (by decide) rfl rfl hl]
    exact ⟨_, .nil⟩
  · intro l hl
    rw [hstr (i := 40) (k := "CacheControl") (by decide) rfl rfl hl]
    exact ⟨[], .nil⟩
  · intro l hl
    rw [hstr (i := 13) (k := "BlockIP") (by decide) rfl rfl hl]
    exact ⟨[], .nil⟩
  · intro l hl
    rw [hstr (i := 15) (k := "IPSubstituting") (by decide) rfl rfl hl]
    exact ⟨[], .nil⟩
  · intro ps hps
    rw [hpath (i := 16) (k := "IPSubstitutingFile") (by decide) rfl rfl hps]
    simp
  · intro ps tss hps h
    rw [hpath (i := 16) (k := "IPSubstitutingFile") (by decide) rfl rfl hps] at h
    cases h
    exact ⟨[], .nil⟩
  · exact ⟨[], [], by simp, by simp, hk 46 "GoodIPList" _ (by decide) rfl, hk 47 "GoodIPListAddIP" _ (by decide) rfl⟩
  · intro l hl
    rw [hpath (i := 24) (k := "HostsDownloadPath") (by decide) rfl rfl hl]
    simp
  · intro l hl
    rw [hstr (i := 20) (k := "StatisticInsertionPosition") (by decide) rfl rfl hl]
    simp

/-- The groups of the default. -/
theorem default_servers {w : World} {tab : Table} {servers : Option (List Groups.Group)} (h3 : Servers w tab servers)
    (hdef : Holds tab "ServerGroup" (.str (["UDP", "1.2.4.8,114.114.114.114", "*", "on"].map str))) :
    ∃ g, servers = some [g] ∧ g.proto = .udp ∧ g.args = ⟨str "1.2.4.8,114.114.114.114", true, none⟩ := by
  rcases h3 with ⟨a, b⟩ | a
  · rename_i ds
    have e := holds_inj a hdef
    injection e with e
    have hds : ds = [.udp (str "1.2.4.8,114.114.114.114") (str "*") (str "on")] := by
      rcases ds with _ | ⟨d, ds⟩
      · simp at e
      · cases d with
        | udp s d p =>
          simp only [List.flatMap_cons, Groups.Decl.tokens, List.map_cons, List.map_nil, List.cons_append, List.nil_append, List.cons.injEq] at e
          obtain ⟨-, rfl, rfl, rfl, e⟩ := e
          rcases ds with _ | ⟨d, ds⟩
          · rfl
          · cases d <;> simp [Groups.Decl.tokens] at e
        | tcp s d p x =>
          simp only [List.flatMap_cons, Groups.Decl.tokens, List.map_cons, List.map_nil, List.cons_append, List.nil_append, List.cons.injEq] at e
          exact absurd e.1 (by decide)
        | file p =>
          simp only [List.flatMap_cons, Groups.Decl.tokens, List.map_cons, List.map_nil, List.cons_append, List.nil_append, List.cons.injEq] at e
          exact absurd e.1 (by decide)
    subst hds
    have hlow : StringList.Lowered (str "on") (str "on") := Groups.lowered_iff.2 (by decide)
    cases b with
    | cons b1 b2 =>
      cases b2
      cases b1 with
      | @udp _ _ _ ds g h h' =>
        obtain ⟨k1, k2, k3, k4, k5⟩ := h'
        refine ⟨g, rfl, k1, ?_⟩
        have k4 := k4.2 hlow
        cases hga : g.args with
        | mk x y z => rw [hga] at k3 k4 k5; dsimp only at k3 k4 k5; rw [k3, k4, k5]
    | wrong b1 => cases b1
    | later b1 b2 => cases b2
  · exact absurd hdef (a [.udp (str "1.2.4.8,114.114.114.114") (str "*") (str "on")])

/-- C117: without a configuration file, the program starts exactly if port 53 of the local machine is free, the default servers can be started, the
worker for aliases finds a port and the timer has its pipe. -/
theorem starts_defaults {w : World} {as : List Arg} (ha : ∀ a ∈ as, a.Ok) {path dir : List Byte} (hp : ConfigFile w as path) (hh : Home w dir)
    (hf : w.file path = none) (hn : w.file (dir ++ str "/hosts.txt") = none) (hi : AddressList.InetOk w.inet) :
    (∃ r, main w (as.flatMap Arg.words) = some r) ↔
      w.udp ⟨.inet, some [127, 0, 0, 1], 53⟩ = true ∧ w.up .udp ⟨str "1.2.4.8,114.114.114.114", true, none⟩ = true ∧ w.inner = true ∧ w.timer = true := by
  rw [main_serves ha hp]
  obtain ⟨c, h1, h2⟩ := defaults hh hf
  have hr : Reads (w.expand [] []) (table dir) [] (table dir) := .nil
  obtain ⟨servers, h3, h4⟩ := serve_iff hr h2 (proper_defaults hn fun i k o _ h => default_held dir i h) hi (configDir_home hh)
  rw [h1, Option.bind_some, h4]
  obtain ⟨g, rfl, g1, g2⟩ := default_servers h3 (default_held dir 5 rfl)
  constructor
  · rintro ⟨-, kt, -, -, k1, ⟨gs, e, k2⟩, -, k4⟩
    cases e
    have k2 := k2 g (by simp)
    rw [g1, g2] at k2
    refine ⟨?_, k2, k4, kt⟩
    rcases k1 with ⟨a, b, d, e⟩ | ⟨a, b, d, e, f⟩
    · have x := holds_inj a (default_held dir 3 rfl)
      injection x with x
      rw [x] at b
      rw [sockets_inj hi b (.cons loopback .nil)] at d
      simp only [List.mem_singleton] at d
      rw [← d]
      exact e
    · have x := holds_inj a (default_held dir 4 rfl)
      injection x with x
      rw [x] at b
      have := sockets_inj hi b .nil
      simp at this
  · rintro ⟨a, b, d, kt⟩
    refine ⟨.inl (default_held dir 0 rfl), kt, .inl (default_held dir 18 rfl), .inl (default_held dir 22 rfl), .udp (default_held dir 3 rfl) (.cons loopback .nil) (by simp) a, ⟨_, rfl, ?_⟩, .inr ⟨1048576, default_held dir 34 rfl, by omega, by omega,
      .inl (default_held dir 35 rfl)⟩, d⟩
    intro g' hg'
    simp only [List.mem_singleton] at hg'
    subst hg'
    rw [g1, g2]
    exact b

/-! ### Samples -/

theorem sample_inet (home : List Byte) (config : Option (List Byte)) : AddressList.InetOk (sampleWorld home config).inet := by
  intro t a ha
  have : IpText.v4ToNum t = .ret 4 (some a) := by
    cases ha with
    | @mk _ _ _ _ a b c d h1 h2 h3 h4 =>
      have la := UInt8.toNat_lt a
      have lb := UInt8.toNat_lt b
      have lc := UInt8.toNat_lt c
      have ld := UInt8.toNat_lt d
      have := IpText.v4_scan (.mk h1.1 h2.1 h3.1 h4.1) [] (by omega) (by omega) (by omega) (by omega) (by simp)
      simpa using this
  show (match IpText.v4ToNum t with | .ret _ (some a) => a | _ => [255, 255, 255, 255]) = a
  rw [this]

/-- With the file `AP true`, the sample system starts. -/
theorem sample_starts : ∃ ts tab servers, Reads (fun p => p) (table (str "/root/.dnsforwarder")) ts tab ∧ ts = [str "AP true"] ∧
    Servers (sampleWorld (str "/root") (some (text [str "AP true"] []))) tab servers ∧
    CanStart (sampleWorld (str "/root") (some (text [str "AP true"] []))) tab (str "/root/.dnsforwarder") servers := by
  obtain ⟨ts, tab, servers, h1, h2, h3, h4⟩ := starts_partial (as := [.quiet]) (by simp [Arg.Ok])
    (.inr ⟨.none (by simp), str "/root", rfl, by decide, by decide⟩) ⟨⟨str "/root", rfl, by decide⟩, by decide, by decide, by decide⟩ sample_fits
    (sample_inet _ _) (fun ts tab h1 h2 => proper_defaults (by decide) fun i k o h => sample_kept ts tab h1 h2 i k o h.1)
  have hmain : (main (sampleWorld (str "/root") (some (text [str "AP true"] []))) (([Arg.quiet] : List Arg).flatMap Arg.words)).isSome = true := by
    decide +kernel
  exact ⟨ts, tab, servers, h2, ap_seen h1, h3, h4.1 (Option.isSome_iff_exists.1 hmain)⟩

/-- A system on which the default servers cannot be started. -/
example : ¬ ∃ r, main { sampleWorld (str "/root") none with up := fun _ _ => false } [] = some r := by
  rintro ⟨r, hr⟩
  have : (main { sampleWorld (str "/root") none with up := fun _ _ => false } []).isSome = false := by decide +kernel
  rw [hr] at this
  cases this

/-- A log that cannot be written keeps the program from starting; so does an interval for the statistics that does not fit, but only if there is a template. -/
example : ((main { sampleWorld (str "/root") (some (text [str "LogOn true"] [])) with write := fun _ => false } []).isSome,
    (main (sampleWorld (str "/root") (some (text [str "LogOn true"] []))) []).isSome) = (false, true) := by decide +kernel

def statisticWorld (template : Option (List Byte)) : World :=
  let w := sampleWorld (str "/root") (some (text [str "DomainStatistic true", str "StatisticUpdateInterval 3000000"] []))
  { w with file := fun p => if p = (str "/root/.dnsforwarder/StatisticTemplate.html") then template else w.file p }

example : ((main (statisticWorld none) []).isSome, (main (statisticWorld (some (str "<!-- INSERT HERE -->"))) []).isSome) = (true, false) := by decide +kernel

end Verif.Startup
