import Verif.Lemmas.Startup
import Verif.Props.Pipeline
import Verif.Props.AddressList
import Verif.Props.CacheTtl
import Verif.Props.GoodIpList
import Verif.Props.IpMisc
import Verif.Props.HostsContainer
import Verif.Spec.Cache
/-! C102-C106: from the command line and the configuration file to a running program. -/

namespace Verif.Startup
open Config
open ReadLine (text Seen LineOk CommentOk whites Visible)

/-! ### C102: the command line -/

theorem args_cons (o : Flags) (u : List (List Byte)) (a : List Byte) (r : List (List Byte)) : args o u (a :: r) =
    if a = str "-h" then .help
    else if a = str "-q" then args { o with quiet := true } u r
    else if a = str "-D" then args { o with debug := true } u r
    else if a = str "-d" then args { o with daemon := true } u r
    else if a = str "-f" then
      match r with
      | [] => .undef
      | f :: r => args { o with file := some f } u r
    else if a = str "-p" then .prepare
    else args o (u ++ [a]) r := by
  cases r <;> rfl

theorem args_step (o : Flags) (u : List (List Byte)) (a : Arg) (ha : a.Ok) (r : List (List Byte)) : args o u (a.words ++ r) =
    match a with
    | .quiet => args { o with quiet := true } u r
    | .debug => args { o with debug := true } u r
    | .daemon => args { o with daemon := true } u r
    | .file p => args { o with file := some p } u r
    | .other b => args o (u ++ [b]) r := by
  cases a with
  | quiet => simp only [Arg.words, List.cons_append, List.nil_append]; rw [args_cons, if_neg (by decide), if_pos rfl]
  | debug => simp only [Arg.words, List.cons_append, List.nil_append]; rw [args_cons, if_neg (by decide), if_neg (by decide), if_pos rfl]
  | daemon => simp only [Arg.words, List.cons_append, List.nil_append]; rw [args_cons, if_neg (by decide), if_neg (by decide), if_neg (by decide), if_pos rfl]
  | file p =>
    simp only [Arg.words, List.cons_append, List.nil_append]
    rw [args_cons, if_neg (by decide), if_neg (by decide), if_neg (by decide), if_neg (by decide), if_pos rfl]
  | other b =>
    simp only [Arg.Ok, List.mem_cons, List.not_mem_nil, or_false, not_or] at ha
    obtain ⟨h1, h2, h3, h4, h5, h6⟩ := ha
    simp only [Arg.words, List.cons_append, List.nil_append]
    rw [args_cons, if_neg h1, if_neg h2, if_neg h3, if_neg h4, if_neg h5, if_neg h6]

/-- The flags after more words. -/
theorem args_words (as : List Arg) (rest : List (List Byte)) : ∀ (o : Flags) (u : List (List Byte)), (∀ a ∈ as, a.Ok) →
    ∃ f, NamedFile as f ∧
      args o u (as.flatMap Arg.words ++ rest) =
        args ⟨f.or o.file, o.quiet || decide (Arg.quiet ∈ as), o.debug || decide (Arg.debug ∈ as), o.daemon || decide (Arg.daemon ∈ as)⟩
          (u ++ others as) rest := by
  induction as with
  | nil => intro o u _; exact ⟨none, .none (by simp), by simp [others]⟩
  | cons a as ih =>
    intro o u ha
    have h1 := args_step o u a (ha a (by simp)) (as.flatMap Arg.words ++ rest)
    have ih := fun o u => ih o u (fun b hb => ha b (by simp [hb]))
    rw [List.flatMap_cons, List.append_assoc, h1]
    have named : ∀ f, NamedFile as f → (∀ p, a ≠ .file p) → NamedFile (a :: as) f := by
      intro f hf hp
      cases hf with
      | none h => exact .none (fun p hm => (List.mem_cons.1 hm).elim (fun e => hp p e.symm) (h p))
      | @last as bs p h => exact NamedFile.last (as := a :: as) h
    cases a with
    | quiet =>
      obtain ⟨f, hf, h2⟩ := ih { o with quiet := true } u
      exact ⟨f, named f hf (by simp), by dsimp only; rw [h2]; simp [others]⟩
    | debug =>
      obtain ⟨f, hf, h2⟩ := ih { o with debug := true } u
      exact ⟨f, named f hf (by simp), by dsimp only; rw [h2]; simp [others]⟩
    | daemon =>
      obtain ⟨f, hf, h2⟩ := ih { o with daemon := true } u
      exact ⟨f, named f hf (by simp), by dsimp only; rw [h2]; simp [others]⟩
    | other b =>
      obtain ⟨f, hf, h2⟩ := ih o (u ++ [b])
      exact ⟨f, named f hf (by simp), by dsimp only; rw [h2]; simp [others]⟩
    | file p =>
      obtain ⟨f, hf, h2⟩ := ih { o with file := some p } u
      cases f with
      | none =>
        refine ⟨some p, ?_, by dsimp only; rw [h2]; simp [others]⟩
        cases hf with
        | none h => exact NamedFile.last (as := []) h
      | some q =>
        refine ⟨some q, ?_, by dsimp only; rw [h2]; simp [others]⟩
        cases hf with
        | @last as bs p h => exact NamedFile.last (as := _ :: as) h

/-- C102, proved part: whatever flags are given, in whatever order and however often, each one has its effect, and only it;
of several files the last one is used; words that are not understood have no effect. -/
theorem command_line_partial (as : List Arg) (ha : ∀ a ∈ as, a.Ok) :
    ∃ f, NamedFile as f ∧ args noFlags [] (as.flatMap Arg.words) =
      .run ⟨f, decide (Arg.quiet ∈ as), decide (Arg.debug ∈ as), decide (Arg.daemon ∈ as)⟩ (others as) := by
  obtain ⟨f, hf, h⟩ := args_words as [] noFlags [] ha
  refine ⟨f, hf, ?_⟩
  rw [List.append_nil] at h
  rw [h]
  simp [args, noFlags]

/-- The first `-h` shows the help, the first `-p` prepares the directory, whatever follows. -/
theorem stops_at (as : List Arg) (ha : ∀ a ∈ as, a.Ok) (rest : List (List Byte)) :
    args noFlags [] (as.flatMap Arg.words ++ str "-h" :: rest) = .help ∧ args noFlags [] (as.flatMap Arg.words ++ str "-p" :: rest) = .prepare := by
  constructor
  · obtain ⟨f, -, h⟩ := args_words as (str "-h" :: rest) noFlags [] ha
    rw [h, args_cons, if_pos rfl]
  · obtain ⟨f, -, h⟩ := args_words as (str "-p" :: rest) noFlags [] ha
    rw [h]
    rw [args_cons, if_neg (by decide), if_neg (by decide), if_neg (by decide), if_neg (by decide), if_neg (by decide), if_pos rfl]

/-- C102: every command line is read without leaving it. -/
def EveryCommandLine : Prop := ∀ argv, args noFlags [] argv ≠ .undef

/-- It is not: behind a last `-f` the memory after the arguments is read. -/
theorem every_command_line_false : ¬ EveryCommandLine := fun h => h [str "-f"] (by decide)

/-- C102, what the help says of `-q`: nothing is printed. -/
def QuietIsQuiet : Prop := ∀ argv o unknown who path opened, args noFlags [] argv = .run o unknown → o.quiet = true →
  ∀ s ∈ printed who o unknown path opened, s = []

/-- It is not: the names of the program and of the configuration file are printed without a look at the flag (main.c 501-507). -/
theorem quiet_is_quiet_false : ¬ QuietIsQuiet := by
  intro h
  have := h [str "-q"] ⟨none, true, false, false⟩ [] [] [] true rfl rfl (str "\n") (by decide)
  exact absurd this (by decide)

/-- Only this one. -/
theorem undef_only (argv : List (List Byte)) : ∀ o u, args o u argv = .undef → argv.getLast? = some (str "-f") := by
  induction h : argv.length using Nat.strongRecOn generalizing argv with
  | ind n ih =>
    intro o u e
    cases argv with
    | nil => simp [args] at e
    | cons a r =>
      have down : ∀ (r' : List (List Byte)) (o : Flags) (u : List (List Byte)), r' <:+ r → args o u r' = .undef → (a :: r).getLast? = some (str "-f") := by
        intro r' o u hs e'
        have hl := hs.length_le
        have := ih r'.length (by simp at h; omega) r' rfl o u e'
        obtain ⟨t, rfl⟩ := hs
        rw [← List.cons_append, List.getLast?_append, this]
        rfl
      rw [args_cons] at e
      split at e
      · cases e
      · split at e
        · exact down r _ _ (List.suffix_refl _) e
        · split at e
          · exact down r _ _ (List.suffix_refl _) e
          · split at e
            · exact down r _ _ (List.suffix_refl _) e
            · split at e
              · rename_i hf
                split at e
                · rw [hf]; rfl
                · exact down _ _ _ (List.suffix_cons _ _) e
              · split at e
                · cases e
                · exact down r _ _ (List.suffix_refl _) e

example : ∃ f, NamedFile [.debug, .file (str "a"), .other (str "-x"), .file (str "b"), .quiet] f ∧
    args noFlags [] [str "-D", str "-f", str "a", str "-x", str "-f", str "b", str "-q"] = .run ⟨f, true, true, false⟩ [str "-x"] :=
  ⟨some (str "b"), NamedFile.last (as := [_, _, _]) (by simp), by decide⟩

/-! ### C103: the default files -/

/-- C103: the default configuration file is found whatever the home directory. -/
def AnyHome : Prop := ∀ h : List Byte, defaultFile (some (some h)) = some (h ++ str "/.dnsforwarder/config")

/-- With more than 298 bytes the memory is left. -/
theorem long_home {h : List Byte} (hl : 298 < h.length) : defaultFile (some (some h)) = none := by
  have : (h ++ str "/.dnsforwarder").length = h.length + 14 := by rw [List.length_append]; rfl
  simp only [defaultFile, configDir]
  rw [if_neg (by omega)]

theorem any_home_false : ¬ AnyHome := by
  intro h
  have := h (List.replicate 299 47)
  rw [long_home (by rw [List.length_replicate]; decide)] at this
  cases this

/-- C103, proved part. -/
theorem default_file_partial {h : List Byte} (hl : h.length ≤ 298) : defaultFile (some (some h)) = some (h ++ str "/.dnsforwarder/config") := by
  have : (h ++ str "/.dnsforwarder").length = h.length + 14 := by rw [List.length_append]; rfl
  simp only [defaultFile, configDir]
  rw [if_pos (by omega), List.append_assoc]
  rfl

/-- Without an entry in the user database there is no directory at all. -/
theorem no_user : defaultFile none = none ∧ ∀ w path, w.home = none → environment w path = none :=
  ⟨rfl, fun w path h => by simp [environment, configDir, h]⟩

/-! ### C104: the options -/

/-- What `main` needs of the file. -/
structure FileFits (w : World) (path dir : List Byte) (ss : List (List Byte)) (last : List Byte) (E : Nat) : Prop where
  content : w.file path = some (text ss last)
  expand : ∀ p, (0 : Byte) ∉ p → (0 : Byte) ∉ w.expand (dir ++ str "/") (directoryOf path) p ∧
    (w.expand (dir ++ str "/") (directoryOf path) p).length ≤ p.length + E
  lines : ∀ s ∈ ss, (LineOk s ∧ s.length + 2 ≤ 2048) ∨ CommentOk 2048 s
  lastOk : LineOk last
  lastFits : last.length + 2 ≤ 2048
  lastText : last = [] ∨ ∃ c ∈ last, c ∉ whites
  numbers : ∀ s ∈ ss ++ [last], ∀ t, Visible s t → NumbersFit (table dir) t
  size : Config.Fits (decls dir) ss last 4 E

/-- The directory: `/.dnsforwarder` in the home directory, of a size that fits, and without commas. -/
structure Home (w : World) (dir : List Byte) : Prop where
  place : ∃ h, w.home = some (some h) ∧ dir = h ++ str "/.dnsforwarder"
  size : dir.length ≤ 1000
  nul : (0 : Byte) ∉ dir
  comma : (44 : Byte) ∉ dir

/-- What the configuration shows. -/
def ShowsTable (c : Cfg) (tab : Table) : Prop := Shows (getInt c 4) (getBoolean c 4) (getStrings c 4) tab

theorem configDir_home {w : World} {dir : List Byte} (h : Home w dir) : configDir w.home = some dir := by
  obtain ⟨d, h1, rfl⟩ := h.place
  rw [h1]
  rfl

/-- C104, proved part: every option has the documented default until a line of the file gives it a value. -/
theorem options_partial {w : World} {path dir : List Byte} {ss : List (List Byte)} {last : List Byte} {E : Nat} (hh : Home w dir)
    (hf : FileFits w path dir ss last E) :
    ∃ c ts tab, environment w path = some c ∧ Seen 2048 (ss ++ [last]) ts ∧
      Reads (w.expand (dir ++ str "/") (directoryOf path)) (table dir) ts tab ∧ ShowsTable c tab := by
  obtain ⟨c, c', ts, tab', h1, -, h3, h4, h5, h6⟩ := reads_partial bkdrHash (w.expand (dir ++ str "/") (directoryOf path)) 4 4 E (by omega) hf.expand (decls dir)
    (table dir) (declared hh.comma) (cleanDecls hh.nul) (sane dir) (preOk dir) ss last hf.lines hf.lastOk hf.lastFits hf.lastText hf.numbers hf.size
  refine ⟨c', ts, tab', ?_, h4, h5, h6⟩
  unfold environment
  rw [configDir_home hh]
  dsimp only
  rw [if_pos (by have := hh.size; omega), h1]
  dsimp only
  rw [hf.content]
  exact h3

theorem decls_small (dir : List Byte) (h : dir.length ≤ 1000) : ((decls dir).map textSize).sum ≤ 5000 ∧ (decls dir).length = 54 := by
  refine ⟨?_, rfl⟩
  have : ((decls dir).map textSize).sum = 4 * dir.length + ((decls []).map textSize).sum := by
    simp only [decls, List.map_cons, List.map_nil, textSize, List.sum_cons, List.sum_nil, List.length_append, List.length_nil]
    omega
  rw [this]
  have : ((decls []).map textSize).sum ≤ 1000 := by decide +kernel
  omega

/-- C104: without a file that can be read, all options have their defaults. -/
theorem defaults {w : World} {path dir : List Byte} (hh : Home w dir) (hf : w.file path = none) :
    ∃ c, environment w path = some c ∧ ShowsTable c (table dir) := by
  obtain ⟨h0, h0'⟩ := decls_small dir hh.size
  obtain ⟨c, h1, h2⟩ := declareAll_rep bkdrHash 4 (by omega) (declared hh.comma) (cleanDecls hh.nul)
    (by rw [h0']; exact Nat.le_trans (Nat.mul_le_mul (Nat.add_le_add_right h0 1) (Nat.le_refl _)) (by decide))
  refine ⟨c, ?_, shows_rep h2 (sane dir) 4 (by omega)⟩
  unfold environment
  rw [configDir_home hh]
  dsimp only
  rw [if_pos (by have := hh.size; omega), h1]
  dsimp only
  rw [hf]

/-- C104: an option that no line names keeps its default. -/
theorem kept {expand : List Byte → List Byte} {dir : List Byte} {ts : List (List Byte)} {tab : Table} (h : Reads expand (table dir) ts tab)
    {i : Nat} {k : String} {o : Opt} (hi : (table dir)[i]? = some (str k, .opt o))
    (hno : ∀ s ∈ ts, ∀ k' v o' p d, Pair s k' v → ¬ Names (table dir) k' i o' p d) : Holds tab k o.val := by
  obtain ⟨vs, o', h1, h2, h3⟩ := history h hi
  have : vs = [] := by
    clear h h2 h3
    induction h1 with
    | nil => rfl
    | skip _ _ ih => exact ih (fun s hs => hno s (by simp [hs]))
    | take hp hn _ _ => exact absurd hn (hno _ (by simp) _ _ _ _ _ hp)
  subst this
  cases h2
  exact ⟨i, _, finds_keys ((reads_keys h).trans (keys_eq dir)) h3, rfl⟩

/-! ### From the options to the running program -/

section
variable {w : World} {dir : List Byte} {expand : List Byte → List Byte} {ts : List (List Byte)} {tab : Table} {c : Cfg}

theorem shown_bool (hs : ShowsTable c tab) {k : String} {b : Bool} (h : Holds tab k (.bool b)) : getB c (str k) = some b := by
  obtain ⟨i, o, h1, h2⟩ := h
  have := (hs (str k)).2 _ _ _ _ (Names.option h1)
  rw [h2] at this
  exact this

theorem shown_int (hs : ShowsTable c tab) {k : String} {n : Int} (h : Holds tab k (.int n)) : getI c (str k) = some n := by
  obtain ⟨i, o, h1, h2⟩ := h
  have := (hs (str k)).2 _ _ _ _ (Names.option h1)
  rw [h2] at this
  exact this

/-- The strings, or NULL. -/
def orNull (l : List (List Byte)) : Option (List (List Byte)) := if l = [] then none else some l

theorem orNull_getD (l : List (List Byte)) : (orNull l).getD [] = l := by
  unfold orNull
  split
  · rename_i h; rw [h]; rfl
  · rfl

theorem orNull_none {l : List (List Byte)} : orNull l = none ↔ l = [] := by
  unfold orNull
  split <;> simp_all

theorem shown_str (hs : ShowsTable c tab) {k : String} {l : List (List Byte)} (h : Holds tab k (.str l)) :
    Config.getStrings c 4 (str k) = some l ∧ getS c (str k) = some (orNull l) := by
  obtain ⟨i, o, h1, h2⟩ := h
  have := (hs (str k)).2 _ _ _ _ (Names.option h1)
  rw [h2] at this
  have h3 : Config.getStrings c 4 (str k) = some l := this
  exact ⟨h3, by unfold getS; rw [h3]; rfl⟩

theorem shown_path (hs : ShowsTable c tab) {k : String} {l : List (List Byte)} (h : Holds tab k (.path l)) :
    Config.getStrings c 4 (str k) = some l ∧ getS c (str k) = some (orNull l) := by
  obtain ⟨i, o, h1, h2⟩ := h
  have := (hs (str k)).2 _ _ _ _ (Names.option h1)
  rw [h2] at this
  have h3 : Config.getStrings c 4 (str k) = some l := this
  exact ⟨h3, by unfold getS; rw [h3]; rfl⟩

/-- What loading consists of. -/
structure LoadedParts (w : World) (c : Cfg) (e : Pipeline.Env) : Prop where
  utot : getB c (str "EnableUDPtoTCP") = some e.opts.udpToTcp
  ttou : getB c (str "EnableTCPtoUDP") = some e.opts.tcpToUdp
  ap : getB c (str "AP") = some e.ap
  block6 : getB c (str "BlockIpv6WhenIpv4Exists") = some e.hosts.blockIpv6
  groups : ∃ conf, getS c (str "ServerGroup") = some conf ∧ Groups.load ⟨w.up, fun p => (w.expandTo p).map w.file⟩ (conf.getD []) = some e.groups
  filter : Startup.filter w c = some e.filter
  cache : Startup.cache w c = some (e.cacheOn, e.cache)
  misc : Startup.misc w c = some (e.lists, e.blockNegative)
  static : staticHosts c = some e.hosts.static
  dynamic : dynamicHosts w c = some e.hosts.dynamic
  good : ∃ names ips good x, getS c (str "GoodIPList") = some names ∧ getS c (str "GoodIPListAddIP") = some ips ∧
    GoodIpList.load bkdrHash names ips = some (good, x) ∧ e.goodIp = fun n => (GoodIpList.get good n).map (·.getD w.junkIp)
  fnm : e.fnm = w.fnm

theorem load_parts {e : Pipeline.Env} (h : load w c = some e) : LoadedParts w c e := by
  unfold load at h
  split at h
  · rename_i utot ttou ap block6 conf h1 h2 h3 h4 h5
    split at h
    · cases h
    · rename_i groups h6
      split at h
      · rename_i f on settings lists negative static dynamic names ips h7 h8 h9 h10 h11 h12 h13
        split at h
        · cases h
        · rename_i good x h14
          split at h
          · cases h
            exact ⟨h1, h2, h3, h4, ⟨conf, h5, h6⟩, h7, h8, h9, h10, h11, ⟨names, ips, good, x, h12, h13, h14, rfl⟩, rfl⟩
          · cases h
      · cases h
  · cases h

theorem serve_parts {r : Running} (h : serve w c = some r) : load w c = some r.env ∧ ¬ (r.udp = [] ∧ r.tcp = []) ∧
    ∃ u t, getS c (str "UDPLocal") = some u ∧ getS c (str "TCPLocal") = some t ∧ listen w w.udp (fun _ => false) (u.getD []) = some r.udp ∧
      listen w w.tcp w.stuck (t.getD []) = some r.tcp := by
  unfold serve at h
  split at h
  · cases h
  split at h
  · rename_i u t h1 h2
    split at h
    · rename_i us ts h3 h4
      split at h
      · cases h
      · rename_i hne
        rw [Option.map_eq_some_iff] at h
        obtain ⟨e, h5, rfl⟩ := h
        exact ⟨h5, hne, u, t, h1, h2, h3, h4⟩
    · cases h
  · cases h

theorem bool_eq (hr : Reads expand (table dir) ts tab) (hs : ShowsTable c tab) (i : Nat) {k : String} {b b' : Bool}
    (hi : (table dir)[i]? = some (switch k b)) (h : getB c (str k) = some b') : Holds tab k (.bool b') := by
  obtain ⟨x, hx⟩ := reads_bool hr i hi
  rw [shown_bool hs hx] at h
  cases h
  exact hx

/-- C105: the switches are those of the configuration. -/
theorem switches {r : Running} (hr : Reads expand (table dir) ts tab) (hs : ShowsTable c tab) (h : serve w c = some r) :
    Holds tab "EnableUDPtoTCP" (.bool r.env.opts.udpToTcp) ∧ Holds tab "EnableTCPtoUDP" (.bool r.env.opts.tcpToUdp) ∧
    Holds tab "AP" (.bool r.env.ap) ∧ Holds tab "BlockIpv6WhenIpv4Exists" (.bool r.env.hosts.blockIpv6) ∧
    Holds tab "UseCache" (.bool r.env.cacheOn) ∧ r.env.fnm = w.fnm ∧
    Holds tab "BlockNegativeResponse" (.bool r.env.blockNegative) := by
  have hl := load_parts (serve_parts h).1
  refine ⟨bool_eq hr hs 10 rfl hl.utot, bool_eq hr hs 11 rfl hl.ttou, bool_eq hr hs 14 rfl hl.ap, bool_eq hr hs 27 rfl hl.block6, ?_, hl.fnm, ?_⟩
  · have hc := hl.cache
    unfold Startup.cache at hc
    split at hc
    · rename_i n use parallel ignore override multiple control memory h1 h2 h3 h4 h5 h6 h7 h8
      split at hc
      · rename_i hu
        simp only [Option.some.injEq, Prod.mk.injEq] at hc
        rw [← hc.1]
        exact bool_eq hr hs 32 rfl (hu ▸ h2)
      · rename_i hu
        split at hc
        · cases hc
        · split at hc
          · cases hc
          · dsimp only at hc
            split at hc
            · cases hc
            · split at hc
              · cases hc
              · simp only [Option.some.injEq, Prod.mk.injEq] at hc
                rw [← hc.1]
                exact bool_eq hr hs 32 rfl (by rw [h2]; cases use; exact absurd rfl hu; rfl)
    · cases hc
  · have hm := hl.misc
    unfold Startup.misc at hm
    split at hm
    · rename_i block subst files negative h1 h2 h3 h4
      split at hm
      · rename_i hu
        simp only [Option.some.injEq, Prod.mk.injEq] at hm
        rw [← hm.2]
        exact bool_eq hr hs 17 rfl (hu.2.2.2 ▸ h4)
      · split at hm
        · cases hm
        · rw [Option.map_eq_some_iff] at hm
          obtain ⟨l, -, hm⟩ := hm
          simp only [Prod.mk.injEq] at hm
          rw [← hm.2]
          exact bool_eq hr hs 17 rfl h4
    · cases hm

/-- C105: the cache has at least the size that is configured, less than 16 bytes more, and room for its slots. -/
theorem cache_size {r : Running} (hr : Reads expand (table dir) ts tab) (hs : ShowsTable c tab) (h : serve w c = some r) (hon : r.env.cacheOn = true)
    (hlog : ∀ n, w.logSquare n ≤ 1000) :
    ∃ n, Holds tab "CacheSize" (.int n) ∧ n ≤ r.env.cache.cfg.size ∧ (r.env.cache.cfg.size : Int) < n + 16 ∧ r.env.cache.cfg.size % 16 = 0 ∧
      102400 ≤ r.env.cache.cfg.size ∧ Cache.Spec.Area r.env.cache.cfg ∧ Holds tab "IgnoreTTL" (.bool r.env.cache.cfg.ignoreTTL) ∧
      Holds tab "CacheParallel" (.bool r.env.cache.cfg.parallel) := by
  have hl := load_parts (serve_parts h).1
  have hc := hl.cache
  unfold Startup.cache at hc
  split at hc
  · rename_i n use parallel ignore override multiple control memory h1 h2 h3 h4 h5 h6 h7 h8
    split at hc
    · simp only [Option.some.injEq, Prod.mk.injEq] at hc
      rw [hon] at hc
      cases hc.1
    · split at hc
      · cases hc
      · split at hc
        · cases hc
        · rename_i hn
          dsimp only at hc
          split at hc
          · cases hc
          · rename_i hsz
            split at hc
            · cases hc
            · simp only [Option.some.injEq, Prod.mk.injEq] at hc
              obtain ⟨n', hn'⟩ := reads_int hr 34 (k := "CacheSize") rfl
              have e := shown_int hs hn'
              rw [h1] at e
              cases e
              have hpos : 0 ≤ n + 15 := by
                false_or_by_contra
                rename_i hneg
                have : Int.tdiv (n + 15) 16 ≤ 0 := by
                  have := Int.tdiv_nonneg (a := -(n + 15)) (b := 16) (by omega) (by omega)
                  rw [Int.neg_tdiv] at this
                  omega
                omega
              rw [Int.tdiv_eq_ediv_of_nonneg hpos] at hc hsz
              obtain ⟨-, hc⟩ := hc
              rw [← hc]
              dsimp only
              refine ⟨n, hn', by omega, by omega, by omega, by omega, ?_, ?_, ?_⟩
              · generalize hz : ((n + 15) / 16 * 16).toNat = z
                have hz' : 102400 ≤ z := by omega
                refine ⟨by unfold slots; dsimp only; omega, ?_⟩
                have := hlog z
                unfold slots
                dsimp only
                split <;> omega
              · exact bool_eq hr hs 37 rfl h4
              · exact bool_eq hr hs 33 rfl h3
  · cases hc

/-- C105: what is kept in the cache, and for how long, is decided by the options `CacheControl`, `OverrideTTL` and `MultipleTTL` (see
`CacheTtl.ttl_decided_partial` for what is missing). -/
theorem cache_rules_partial {r : Running} (hr : Reads expand (table dir) ts tab) (hs : ShowsTable c tab) (h : serve w c = some r) (hon : r.env.cacheOn = true) :
    ∃ lines override multiple, Holds tab "CacheControl" (.str lines) ∧ Holds tab "OverrideTTL" (.int override) ∧
      Holds tab "MultipleTTL" (.int multiple) ∧ ∀ ls, CacheTtl.LinesText lines ls →
      ∀ (fnm : List Byte → List Byte → Bool) (q behind item : List Byte) (x : Nat) (res : Option Nat), q ≠ [] → item ≠ [] →
        (∀ v ∈ res, v < 4294967296) → CacheTtl.Decides (CacheTtl.withGeneral ls override multiple) fnm q item x res →
        CacheTtl.effective r.env.cache.rules fnm q behind item x = res.getD 0 := by
  have hl := load_parts (serve_parts h).1
  have hc := hl.cache
  unfold Startup.cache at hc
  split at hc
  · rename_i n use parallel ignore override multiple control memory h1 h2 h3 h4 h5 h6 h7 h8
    split at hc
    · simp only [Option.some.injEq, Prod.mk.injEq] at hc
      rw [hon] at hc
      cases hc.1
    · split at hc
      · cases hc
      · rename_i rules hrules
        split at hc
        · cases hc
        · dsimp only at hc
          split at hc
          · cases hc
          · split at hc
            · cases hc
            · simp only [Option.some.injEq, Prod.mk.injEq] at hc
              obtain ⟨l, hl'⟩ := reads_str hr 40 (k := "CacheControl") rfl
              obtain ⟨ov, hov⟩ := reads_int hr 38 (k := "OverrideTTL") rfl
              obtain ⟨mu, hmu⟩ := reads_int hr 39 (k := "MultipleTTL") rfl
              have e := (shown_str hs hl').2; rw [h7] at e; cases e
              have e := shown_int hs hov; rw [h5] at e; cases e
              have e := shown_int hs hmu; rw [h6] at e; cases e
              refine ⟨l, _, _, hl', hov, hmu, fun ls hls fnm q behind item x res hq hi hx hd => ?_⟩
              obtain ⟨c', e1, e2⟩ := CacheTtl.ttl_decided_partial (orNull l) ls _ _ fnm q behind item x res (by rw [orNull_getD]; exact hls) hq hi hx hd
              rw [hrules] at e1
              cases e1
              rw [← hc.2]
              exact e2
  · cases hc

theorem takeWhile_yes {α : Type} (l : List α) : l.takeWhile (fun _ => !false) = l := by
  induction l with
  | nil => rfl
  | cons a l ih => rw [List.takeWhile_cons, ih]; rfl

/-- C106: the program listens on exactly the configured addresses that can be bound, and on at least one.  With TCP only on those before the
first one `listen` fails for. -/
theorem listens_partial {r : Running} (hr : Reads expand (table dir) ts tab) (hs : ShowsTable c tab) (h : serve w c = some r) (hi : AddressList.InetOk w.inet) :
    (r.udp ≠ [] ∨ r.tcp ≠ []) ∧ ∃ us tcps, Holds tab "UDPLocal" (.str us) ∧ Holds tab "TCPLocal" (.str tcps) ∧
      (∀ ss, Sockets us ss → r.udp = ss.filter w.udp) ∧
      (∀ ss, Sockets tcps ss → r.tcp = (ss.filter w.tcp).takeWhile (fun a => !w.stuck a)) := by
  obtain ⟨-, hne, u, t, h1, h2, h3, h4⟩ := serve_parts h
  obtain ⟨us, hus⟩ := reads_str hr 3 (k := "UDPLocal") rfl
  obtain ⟨tcps, htcps⟩ := reads_str hr 4 (k := "TCPLocal") rfl
  have e := (shown_str hs hus).2; rw [h1] at e; cases e
  have e := (shown_str hs htcps).2; rw [h2] at e; cases e
  rw [orNull_getD] at h3 h4
  have key : ∀ (ok stuck : AddressList.Sock → Bool) (l : List (List Byte)) (ss : List AddressList.Sock), Sockets l ss →
      listen w ok stuck l = some ((ss.filter ok).takeWhile (fun a => !stuck a)) := by
    intro ok stuck l ss hl
    induction hl with
    | nil => rfl
    | @cons s a f p ts ss h1 h2 ih =>
      unfold listen
      rw [AddressList.understood w.inet hi 53 s a f p h1]
      dsimp only
      rw [ih, List.filter_cons]
      split
      · rw [List.takeWhile_cons]
        split <;> simp_all
      · rfl
  refine ⟨by grind, us, tcps, hus, htcps, fun ss hss => ?_, fun ss hss => ?_⟩
  · rw [key _ _ _ _ hss, takeWhile_yes] at h3; exact (Option.some.inj h3).symm
  · rw [key _ _ _ _ hss] at h4; exact (Option.some.inj h4).symm

/-- C105: a list of good addresses hands out what is configured for it. -/
theorem good_ip_partial {r : Running} (hs : ShowsTable c tab) (h : serve w c = some r)
    (lists : List GoodIpList.ListOpt) (ips : List GoodIpList.IpOpt) (hl : ∀ o ∈ lists, o.Ok) (hi : ∀ o ∈ ips, o.Ok)
    (h1 : Holds tab "GoodIPList" (.str (lists.map (·.text)))) (h2 : Holds tab "GoodIPListAddIP" (.str (ips.map (·.text)))) (n : List Byte) :
    r.env.goodIp n = (GoodIpList.configured lists ips n)[0]? := by
  obtain ⟨names, ips', good, x, e1, e2, e3, e4⟩ := (load_parts (serve_parts h).1).good
  have e := (shown_str hs h1).2; rw [e1] at e; cases e
  have e := (shown_str hs h2).2; rw [e2] at e; cases e
  rw [e4]
  dsimp only
  by_cases hln : lists = []
  · subst hln
    have : good = none := by
      have : GoodIpList.load bkdrHash (orNull ([].map GoodIpList.ListOpt.text)) (orNull (ips.map (·.text))) = some (none, []) := rfl
      rw [this] at e3
      cases e3
      rfl
    subst this
    simp [GoodIpList.get, GoodIpList.configured]
  · obtain ⟨st, tasks, k1, -, k2, -⟩ := GoodIpList.hands_out_configured_partial bkdrHash lists ips hl hi
    have hg : good = some st := by
      have a1 : orNull (lists.map (·.text)) = some (lists.map (·.text)) := by unfold orNull; rw [if_neg (by simpa using hln)]
      rw [a1] at e3
      unfold GoodIpList.load at k1 e3
      cases hx : GoodIpList.initLists bkdrHash (some (lists.map (·.text))) with
      | none => rw [hx] at k1; cases k1
      | some o =>
        rw [hx] at k1 e3
        cases o with
        | none => cases k1
        | some st0 =>
          dsimp only at k1 e3
          by_cases hin : ips = []
          · subst hin
            cases e3
            cases k1
            rfl
          · have a2 : orNull (ips.map (·.text)) = some (ips.map (·.text)) := by unfold orNull; rw [if_neg (by simpa using hin)]
            rw [a2] at e3
            dsimp only at e3
            rw [k1] at e3
            cases e3
            rfl
    rw [hg, k2]
    cases (GoodIpList.configured lists ips n)[0]? <;> rfl

/-- A file that is read as it should be (see `ReadLine.every_line_partial`). -/
def TextOk (n : Nat) (content : List Byte) : Prop :=
  ∃ ss last, content = text ss last ∧ (∀ s ∈ ss, ReadLine.Ok n s) ∧ LineOk last ∧ last.length + 2 ≤ n ∧ (last = [] ∨ ∃ c ∈ last, c ∉ whites)

/-- The files the server groups see. -/
def groupWorld (w : World) : Groups.World := ⟨w.up, fun p => (w.expandTo p).map w.file⟩

/-- The values of the options, and the files they name, can be read: types are numbers, hosts have the documented form, files have
lines of a fair length. -/
structure Readable (w : World) (tab : Table) : Prop where
  types : ∀ l, Holds tab "DisabledType" (.str l) → ∃ ns, Numbers l ns
  lists : ∀ ps, Holds tab "DisabledList" (.path ps) → ∀ p ∈ ps, ∀ content, w.file p = some content → TextOk 512 content
  static : ∀ l, Holds tab "AppendHosts" (.str l) → ∃ es, Hosts.Lines l es
  dynamic : ∀ f l content, Holds tab "HostsDownloadPath" (.path (f :: l)) → w.file f = some content →
    TextOk 320 content ∧ ∀ ts, FileLines w.file 320 f ts → ∃ es, Hosts.Lines ts es
  groups : ∀ ds : List Groups.Decl, Holds tab "ServerGroup" (.str (ds.flatMap Groups.Decl.tokens)) → ∀ d ∈ ds, Groups.Fine d ∧
    ∀ p content, Groups.Uses (groupWorld w) d p → (groupWorld w).file p = some (some content) → Groups.FileOk content

/-- What the configuration of the stages is taken from. -/
structure Sources (w : World) (tab : Table) (cfg : Pipeline.Config) : Prop where
  types : ∃ l ns, Holds tab "DisabledType" (.str l) ∧ Numbers l ns ∧ cfg.types.getD [] = ns
  domains : ∃ l, Holds tab "DisabledDomain" (.str l) ∧ cfg.opt.getD [] = l
  lists : ∃ ps tss, Holds tab "DisabledList" (.path ps) ∧ FilesLines w.file 512 ps tss ∧ cfg.files.getD [] = tss
  static : ∃ l, Holds tab "AppendHosts" (.str l) ∧ Hosts.Lines l cfg.static
  dynamic : Dynamic w tab cfg.dynamic
  groups : Holds tab "ServerGroup" (.str (cfg.decls.flatMap Groups.Decl.tokens))
  world : cfg.world = groupWorld w

theorem scanTypes_numbers {l : List (List Byte)} {ns : List Int} (h : Numbers l ns) {r : List (Option Int)} (hs : scanTypes l = some r) :
    r = ns.map some := by
  induction h generalizing r with
  | nil => cases hs; rfl
  | @cons s n ss ns h1 h2 ih =>
    unfold scanTypes at hs
    rcases scan_cases s with ⟨m, rest, e, hm⟩ | ⟨e, hm⟩ | ⟨e, -⟩ <;> rw [e] at hs <;> dsimp only at hs
    · rw [Option.map_eq_some_iff] at hs
      obtain ⟨r', h3, rfl⟩ := hs
      rw [ih h3, number_unique h1 hm]
      rfl
    · exact (noNumber_not hm h1).elim
    · cases hs

theorem readFile_seen {n : Nat} (hn : 2 ≤ n) {p content : List Byte} (hf : w.file p = some content) (ho : TextOk n content) {ls : List (List Byte)}
    (h : ReadLine.readFile n content = some ls) : FileLines w.file n p ls := by
  obtain ⟨ss, last, rfl, h1, h2, h3, h4⟩ := ho
  obtain ⟨ts, h5, h6⟩ := ReadLine.every_line_partial n ss last hn h1 h2 h3 h4
  rw [h] at h5
  cases h5
  exact .read hf h6

theorem linesOf_seen {n : Nat} (hn : 2 ≤ n) {ps : List (List Byte)} (ho : ∀ p ∈ ps, ∀ content, w.file p = some content → TextOk n content)
    {tss : List (List (List Byte))} (h : linesOf w n ps = some tss) : FilesLines w.file n ps tss := by
  induction ps generalizing tss with
  | nil => cases h; exact .nil
  | cons p ps ih =>
    unfold linesOf at h
    split at h
    · rename_i ls r h1 h2
      cases h
      refine .cons ?_ (ih (fun q hq => ho q (by simp [hq])) h2)
      cases hf : w.file p with
      | none => rw [hf] at h1; cases h1; exact .missing hf
      | some content => rw [hf] at h1; exact readFile_seen hn hf (ho p (by simp) _ hf) h1
    · cases h

/-- C105: the stages that queries meet are configured with the values of the options; what this means for each query is stated by
`Pipeline.precedence_partial`. -/
theorem configured_partial {r : Running} (hr : Reads expand (table dir) ts tab) (hs : ShowsTable c tab) (h : serve w c = some r) (hw : Readable w tab) :
    ∃ cfg, Sources w tab cfg ∧ Pipeline.Configured r.env cfg := by
  have hl := load_parts (serve_parts h).1
  -- the filter
  obtain ⟨types, htypes⟩ := reads_str hr 43 (k := "DisabledType") rfl
  obtain ⟨doms, hdoms⟩ := reads_str hr 44 (k := "DisabledDomain") rfl
  obtain ⟨ps, hps⟩ := reads_path hr 45 (k := "DisabledList") rfl
  obtain ⟨ns, hns⟩ := hw.types types htypes
  have hfil := hl.filter
  unfold Startup.filter at hfil
  rw [(shown_str hs htypes).2, (shown_str hs hdoms).2, (shown_path hs hps).2] at hfil
  dsimp only [Option.bind_some] at hfil
  have hfil : ∃ tss : List (List (List Byte)), FilesLines w.file 512 ps tss ∧ r.env.filter =
      ⟨Filter.initTypes w.junk ((if types = [] then none else some ns).map (·.map some)),
        Filter.initDomains (orNull doms) (if ps = [] then none else some tss)⟩ := by
    split at hfil
    · rename_i a b f h1 h2 h3
      cases h2
      simp only [Option.some.injEq] at hfil
      have ha : a = (if types = [] then none else some ns).map (·.map some) := by
        unfold orNull at h1
        split at h1
        · rename_i e; subst e; cases h1; rfl
        · rename_i e
          unfold within at h1
          dsimp only at h1
          rw [Option.map_eq_some_iff] at h1
          obtain ⟨x, e1, rfl⟩ := h1
          rw [if_neg e, scanTypes_numbers hns e1]
          rfl
      have hb : ∃ tss : List (List (List Byte)), FilesLines w.file 512 ps tss ∧ f = if ps = [] then none else some tss := by
        unfold orNull at h3
        split at h3
        · rename_i e; subst e; cases h3; exact ⟨[], .nil, rfl⟩
        · rename_i e
          unfold within at h3
          dsimp only at h3
          rw [Option.map_eq_some_iff] at h3
          obtain ⟨x, e1, rfl⟩ := h3
          exact ⟨x, linesOf_seen (by omega) (hw.lists ps hps) e1, by rw [if_neg e]⟩
      obtain ⟨tss, h4, rfl⟩ := hb
      exact ⟨tss, h4, by rw [← hfil, ha]⟩
    · cases hfil
  obtain ⟨tss, hfiles, hfil⟩ := hfil
  -- the hosts
  obtain ⟨hl1, hhl1⟩ := reads_str hr 26 (k := "AppendHosts") rfl
  obtain ⟨es1, hes1⟩ := hw.static hl1 hhl1
  have hst := hl.static
  unfold staticHosts at hst
  rw [(shown_str hs hhl1).2, Option.bind_some] at hst
  have hst : Hosts.LoadedOpt r.env.hosts.static es1 := by
    unfold orNull at hst
    split at hst
    · rename_i e
      subst e
      cases hes1
      simp only [within, Option.some.injEq] at hst
      rw [← hst]
      rfl
    · unfold within at hst
      dsimp only at hst
      rw [Option.map_eq_some_iff] at hst
      obtain ⟨x, e1, e2⟩ := hst
      rw [← e2]
      exact ⟨hl1, hes1, e1⟩
  obtain ⟨hosts, hhosts⟩ := reads_path hr 22 (k := "Hosts") rfl
  obtain ⟨script, hscript⟩ := reads_str hr 25 (k := "HostsScript") rfl
  obtain ⟨path, hpath⟩ := reads_path hr 24 (k := "HostsDownloadPath") rfl
  obtain ⟨retry, hretry⟩ := reads_int hr 23 (k := "HostsRetryInterval") rfl
  obtain ⟨interval, hinterval⟩ := reads_int hr 28 (k := "ModulesUpdateInterval") rfl
  have hdy := hl.dynamic
  unfold dynamicHosts getRaw at hdy
  rw [(shown_path hs hhosts).2, (shown_str hs hscript).1, (shown_path hs hpath).1, shown_int hs hretry, shown_int hs hinterval] at hdy
  dsimp only [Option.map_some] at hdy
  have hdy : ∃ es2, Dynamic w tab es2 ∧ Hosts.LoadedOpt r.env.hosts.dynamic es2 := by
    split at hdy
    · rename_i e
      rw [orNull_none] at e
      subst e
      rw [← Option.some.inj hdy]
      exact ⟨[], .noHosts hhosts, rfl⟩
    · rename_i e
      rw [orNull_none] at e
      split at hdy
      · rename_i e1
        rw [← Option.some.inj hdy]
        refine ⟨[], ?_, rfl⟩
        cases script with
        | nil => simp at e1
        | cons s l => exact .noScript hscript (by simpa using e1)
      · split at hdy
        · rename_i e2
          rw [← Option.some.inj hdy]
          exact ⟨[], .negative hretry e2, rfl⟩
        split at hdy
        · cases hdy
        · cases path with
          | nil => cases hdy
          | cons f l =>
            dsimp only [List.head?_cons] at hdy
            cases hf : w.file f with
            | none =>
              rw [hf] at hdy
              rw [← Option.some.inj hdy]
              exact ⟨[], .file hhosts e hpath (.missing hf) .nil, rfl⟩
            | some content =>
              rw [hf] at hdy
              dsimp only at hdy
              rw [Option.bind_eq_some_iff] at hdy
              obtain ⟨ls, e3, e4⟩ := hdy
              rw [Option.map_eq_some_iff] at e4
              obtain ⟨x, e5, e6⟩ := e4
              obtain ⟨k1, k2⟩ := hw.dynamic f l content hpath hf
              have k3 := readFile_seen (by omega) hf k1 e3
              obtain ⟨es, k4⟩ := k2 ls k3
              rw [← e6]
              exact ⟨es, .file hhosts e hpath k3 k4, ls, k4, e5⟩
  obtain ⟨es2, hd1, hd2⟩ := hdy
  -- the groups
  obtain ⟨conf, hg1, hg2⟩ := hl.groups
  obtain ⟨gl, hgl⟩ := reads_str hr 5 (k := "ServerGroup") rfl
  have e := (shown_str hs hgl).2; rw [hg1] at e; cases e
  rw [orNull_getD] at hg2
  obtain ⟨ds, rfl⟩ := Groups.load_shape _ _ (by rw [hg2]; rfl)
  have hgr := hw.groups ds hgl
  refine ⟨⟨if types = [] then none else some ns, orNull doms, if ps = [] then none else some tss, es1, es2, groupWorld w, ds⟩,
    ⟨⟨types, ns, htypes, hns, ?_⟩, ⟨doms, hdoms, orNull_getD _⟩, ⟨ps, tss, hps, hfiles, ?_⟩, ⟨hl1, hhl1, hes1⟩, hd1, hgl, rfl⟩,
    ⟨⟨w.junk, hfil⟩, hst, hd2, fun d hd p content hu hf => (hgr d hd).2 p content hu hf, fun d hd => (hgr d hd).1, hg2⟩⟩
  · dsimp only
    split
    · rename_i e; subst e; cases hns; rfl
    · rfl
  · dsimp only
    split
    · rename_i e; subst e; cases hfiles; rfl
    · rfl

/-- A line of the configuration and the entry it stands for. -/
def Says : IpMisc.Line → IpChunk.Entry → Prop
  | .block t, e => Blocks t e
  | .subst ip sub, e => Substitutes ip sub e

inductive AllSay : List IpMisc.Line → List IpChunk.Entry → Prop
  | nil : AllSay [] []
  | cons {l : IpMisc.Line} {ls : List IpMisc.Line} {e : IpChunk.Entry} {es : List IpChunk.Entry} : Says l e → AllSay ls es → AllSay (l :: ls) (e :: es)

theorem allSay_append {a b : List IpMisc.Line} {es fs : List IpChunk.Entry} (h : AllSay a es) (h' : AllSay b fs) : AllSay (a ++ b) (es ++ fs) := by
  induction h with
  | nil => exact h'
  | cons h1 _ ih => exact .cons h1 ih

theorem allSay_block {ts : List (List Byte)} {es : List IpChunk.Entry} (h : AllBlock ts es) : AllSay (ts.map .block) es := by
  induction h with
  | nil => exact .nil
  | cons h1 _ ih => exact .cons h1 ih

theorem allSay_pairs {ts : List (List Byte)} {es : List IpChunk.Entry} (h : AllPairs ts es) : AllSay (pairs ts) es := by
  induction h with
  | nil => exact .nil
  | odd => exact .nil
  | cons h1 _ ih => exact .cons h1 ih

theorem word_eq {p a q : List Byte} (hp : Blanks p) (ha : Solid a) (hq : ∀ c ∈ q.head?, c = 32 ∨ c = 9) : word (p ++ (a ++ q)) = (a, q) := by
  unfold word
  have h1 := AddressList.takeWhile_stop (fun c => c == 32 || c == 9) p (a ++ q) (fun c hc => by simpa using hp c hc) (fun c hc => by
    cases a with
    | nil => exact absurd rfl ha.1
    | cons x a =>
      simp only [List.cons_append, List.head?_cons, Option.mem_some_iff] at hc
      have := ha.2 x (by simp)
      rw [← hc]
      simpa using this)
  have h2 := AddressList.takeWhile_stop (fun c => c != 32 && c != 9) a q (fun c hc => by simpa using ha.2 c hc) (fun c hc => by
    have := hq c hc
    simpa [Decidable.or_iff_not_imp_left] using this)
  dsimp only
  rw [h1.2, h2.1, h2.2]

theorem word_blank {q : List Byte} (hq : Blanks q) : (word q).1 = [] := by
  unfold word
  dsimp only
  rw [IpChunk.dropWhile_all (fun c hc => by simpa using hq c hc)]
  rfl

theorem allSay_lines {ts : List (List Byte)} {es : List IpChunk.Entry} (h : AllLines ts es) : AllSay (ts.filterMap substLine) es := by
  induction h with
  | nil => exact .nil
  | @word p a q ts es hp ha hq _ ih =>
    have : substLine (p ++ (a ++ q)) = none := by
      unfold substLine
      rw [word_eq hp ha (fun c hc => hq c (List.mem_of_mem_head? hc))]
      dsimp only
      rw [if_pos (word_blank hq)]
    rw [List.filterMap_cons, this]
    exact ih
  | @cons p a q b r ts e es hp ha hq hq0 hb hr hs _ ih =>
    have : substLine (p ++ (a ++ (q ++ (b ++ r)))) = some (.subst a b) := by
      unfold substLine
      have h1 : word (p ++ (a ++ (q ++ (b ++ r)))) = (a, q ++ (b ++ r)) := word_eq hp ha (fun c hc => by
        cases q with
        | nil => exact absurd rfl hq0
        | cons x q => simp only [List.cons_append, List.head?_cons, Option.mem_some_iff] at hc; exact hq c (by simp [hc]))
      have h2 : word (q ++ (b ++ r)) = (b, r) := word_eq hq hb (fun c hc => by
        rcases hr with rfl | ⟨x, r', rfl, hx⟩
        · simp at hc
        · simp only [List.head?_cons, Option.mem_some_iff] at hc; rwa [← hc])
      rw [h1]
      dsimp only
      rw [h2, if_neg hb.1]
    rw [List.filterMap_cons, this]
    exact .cons hs ih

theorem byte_inj {a b : Byte} (h : a.toNat = b.toNat) : a = b := UInt8.toNat_inj.1 h

/-- Loading adds the entries. -/
theorem load_build {ls : List IpMisc.Line} {es : List IpChunk.Entry} (h : AllSay ls es) (c : IpChunk.Chunk) :
    IpMisc.load c ls = IpChunk.build c (es.map IpChunk.Entry.arg) := by
  induction h generalizing c with
  | nil => rfl
  | @cons l ls e es h1 h2 ih =>
    cases l with
    | block t =>
      obtain ⟨e1, e2, e3, e4⟩ := h1
      rw [IpMisc.load, List.map_cons, IpChunk.build, IpMisc.addBlock, IpChunk.Entry.arg, e1, e3, e4]
      dsimp only
      rw [show IpMisc.typeBlock = 1 from rfl]
      cases IpChunk.add c t 1 none with
      | none => rfl
      | some x => exact ih x.2
    | subst ip sub =>
      obtain ⟨e1, e2, e3, x, e4, e5⟩ := h1
      have : ∃ n, (if (58 : Byte) ∈ ip then IpText.v6ToNum sub else IpText.v4ToNum sub) = .ret n (some x) := by
        have h6 := IpMisc.colon_six e2
        cases hb : e.range.six with
        | true =>
          rw [hb] at e5
          rw [if_pos (h6.2 hb)]
          cases e5 with
          | @v6 s x vs hv hx =>
            obtain ⟨a, ha, hb'⟩ := IpText.v6_parse hv [] (by simp)
            rw [List.nil_append] at ha
            exact ⟨_, by rw [ha, Hosts.v6Bytes_unique hb' hx]⟩
        | false =>
          rw [hb] at e5
          rw [if_neg (fun hx => by rw [h6.1 hx] at hb; cases hb)]
          cases e5 with
          | @v4 s a b c d hv =>
            obtain ⟨w', x', y', z', hw, k1, k2, k3, k4⟩ := IpText.v4_parse hv [] (by have := a.toNat_lt; omega) (by have := b.toNat_lt; omega)
              (by have := c.toNat_lt; omega) (by have := d.toNat_lt; omega) (by simp)
            rw [List.append_nil] at hw
            exact ⟨4, by rw [hw, byte_inj k1, byte_inj k2, byte_inj k3, byte_inj k4]⟩
      obtain ⟨n, hn⟩ := this
      rw [IpMisc.load, List.map_cons, IpChunk.build, IpMisc.addSubstitute, hn, IpChunk.Entry.arg, e1, e3, e4]
      dsimp only
      rw [show IpMisc.typeSubstitute = 2 from rfl]
      cases IpChunk.add c ip 2 (some x) with
      | none => rfl
      | some x => exact ih x.2

theorem substFiles_lines {ps : List (List Byte)} (ho : ∀ p ∈ ps, ∀ content, (w.expandTo p).bind w.file = some content → TextOk 512 content)
    {more : List IpMisc.Line} (h : substFiles w ps = some more) :
    ∃ tss, FilesLines (fun p => (w.expandTo p).bind w.file) 512 ps tss ∧ more = tss.flatten.filterMap substLine := by
  induction ps generalizing more with
  | nil => cases h; exact ⟨[], .nil, rfl⟩
  | cons p ps ih =>
    unfold substFiles at h
    split at h
    · rename_i ls r h1 h2
      cases h
      obtain ⟨tss, k1, k2⟩ := ih (fun q hq => ho q (by simp [hq])) h2
      refine ⟨ls :: tss, .cons ?_ k1, by rw [List.flatten_cons, List.filterMap_append, k2]⟩
      cases hf : (w.expandTo p).bind w.file with
      | none => rw [hf] at h1; cases h1; exact .missing hf
      | some content =>
        rw [hf] at h1
        obtain ⟨ss, last, rfl, j1, j2, j3, j4⟩ := ho p (by simp) content hf
        obtain ⟨ts, h5, h6⟩ := ReadLine.every_line_partial 512 ss last (by omega) j1 j2 j3 j4
        dsimp only at h1
        rw [h1] at h5
        cases h5
        exact .read hf h6
    · cases h

/-- What the lists hold that were made from the options. -/
theorem misc_says {lists : Option IpChunk.Chunk} {negative : Bool} (hr : Reads expand (table dir) ts tab) (hs : ShowsTable c tab)
    (hm : Startup.misc w c = some (lists, negative))
    (hf : ∀ ps, Holds tab "IPSubstitutingFile" (.path ps) → ∀ p ∈ ps, ∀ content, (w.expandTo p).bind w.file = some content → TextOk 512 content) :
    ∃ block subst files tss, Holds tab "BlockIP" (.str block) ∧ Holds tab "IPSubstituting" (.str subst) ∧ Holds tab "IPSubstitutingFile" (.path files) ∧
      FilesLines (fun p => (w.expandTo p).bind w.file) 512 files tss ∧
      ∀ e1 e2 e3, AllBlock block e1 → AllPairs subst e2 → AllLines tss.flatten e3 → IpMisc.WellFormed (e1 ++ e2 ++ e3) →
        (lists = none ∧ e1 ++ e2 ++ e3 = []) ∨ ∃ l, lists = some l ∧ IpChunk.find l = IpMisc.policy (e1 ++ e2 ++ e3) := by
  obtain ⟨block, hblock⟩ := reads_str hr 13 (k := "BlockIP") rfl
  obtain ⟨subst, hsubst⟩ := reads_str hr 15 (k := "IPSubstituting") rfl
  obtain ⟨files, hfiles⟩ := reads_path hr 16 (k := "IPSubstitutingFile") rfl
  obtain ⟨neg, hneg⟩ := reads_bool hr 17 (k := "BlockNegativeResponse") rfl
  unfold Startup.misc at hm
  rw [(shown_str hs hblock).2, (shown_str hs hsubst).2, (shown_path hs hfiles).2, shown_bool hs hneg] at hm
  dsimp only at hm
  rw [orNull_getD, orNull_getD, orNull_getD] at hm
  split at hm
  · rename_i e
    obtain ⟨a1, a2, a3, -⟩ := e
    rw [orNull_none] at a1 a2 a3
    subst a1; subst a2; subst a3
    refine ⟨[], [], [], [], hblock, hsubst, hfiles, .nil, fun e1 e2 e3 k1 k2 k3 _ => .inl ⟨?_, ?_⟩⟩
    · simp only [Option.some.injEq, Prod.mk.injEq] at hm; exact hm.1.symm
    · cases k1; cases k2; cases k3; rfl
  · cases hx : substFiles w files with
    | none => rw [hx] at hm; cases hm
    | some more =>
      rw [hx] at hm
      dsimp only at hm
      rw [Option.map_eq_some_iff] at hm
      obtain ⟨l, h1, h2⟩ := hm
      simp only [Prod.mk.injEq] at h2
      obtain ⟨tss, k1, k2⟩ := substFiles_lines (hf files hfiles) hx
      refine ⟨block, subst, files, tss, hblock, hsubst, hfiles, k1, fun e1 e2 e3 j1 j2 j3 hwf => .inr ⟨l, h2.1.symm, ?_⟩⟩
      have hsay : AllSay (block.map .block ++ pairs subst ++ more) (e1 ++ e2 ++ e3) :=
        allSay_append (allSay_append (allSay_block j1) (allSay_pairs j2)) (by rw [k2]; exact allSay_lines j3)
      rw [load_build hsay] at h1
      obtain ⟨l', g1, g2⟩ := IpChunk.lookup_partial _ hwf.1 hwf.2.1
      rw [h1] at g1
      cases g1
      exact funext g2

/-- C105: addresses in responses are blocked and substituted as the options `BlockIP`, `IPSubstituting` and `IPSubstitutingFile` say (what this means
for a response is stated by `IpMisc.substitution_partial`). -/
theorem addresses_partial {r : Running} (hr : Reads expand (table dir) ts tab) (hs : ShowsTable c tab) (h : serve w c = some r)
    (hf : ∀ ps, Holds tab "IPSubstitutingFile" (.path ps) → ∀ p ∈ ps, ∀ content, (w.expandTo p).bind w.file = some content → TextOk 512 content) :
    ∃ block subst files tss, Holds tab "BlockIP" (.str block) ∧ Holds tab "IPSubstituting" (.str subst) ∧ Holds tab "IPSubstitutingFile" (.path files) ∧
      FilesLines (fun p => (w.expandTo p).bind w.file) 512 files tss ∧
      ∀ e1 e2 e3, AllBlock block e1 → AllPairs subst e2 → AllLines tss.flatten e3 → IpMisc.WellFormed (e1 ++ e2 ++ e3) →
        (r.env.lists = none ∧ e1 ++ e2 ++ e3 = []) ∨ ∃ l, r.env.lists = some l ∧ IpChunk.find l = IpMisc.policy (e1 ++ e2 ++ e3) := by
  exact misc_says hr hs (load_parts (serve_parts h).1).misc hf

end

/-! ### All of it -/

theorem namedFile_inj {as : List Arg} {f g : Option (List Byte)} (h : NamedFile as f) (h' : NamedFile as g) : f = g := by
  have key : ∀ {f}, NamedFile as f → as.reverse.findSome? (fun a => match a with | .file p => some p | _ => none) = f := by
    intro f h
    cases h with
    | none h =>
      rw [List.findSome?_eq_none_iff]
      intro a ha
      cases a with
      | file p => exact absurd (List.mem_reverse.1 ha) (h p)
      | _ => rfl
    | @last as bs p hb =>
      rw [List.reverse_append, List.reverse_cons, List.append_assoc, List.findSome?_append]
      have : bs.reverse.findSome? (fun a => match a with | Arg.file p => some p | _ => none) = none := by
        rw [List.findSome?_eq_none_iff]
        intro a ha
        cases a with
        | file p => exact absurd (List.mem_reverse.1 ha) (hb p)
        | _ => rfl
      rw [this]
      rfl
  rw [← key h, ← key h']

/-- The configuration file: the one that is named, or the one in the home directory, whose path must not be too long. -/
def ConfigFile (w : World) (as : List Arg) (path : List Byte) : Prop :=
  NamedFile as (some path) ∨ NamedFile as none ∧ ∃ h, w.home = some (some h) ∧ h.length ≤ 298 ∧ path = h ++ str "/.dnsforwarder/config"

/-- The program that runs is the one of the configuration. -/
theorem main_serves {w : World} {as : List Arg} (ha : ∀ a ∈ as, a.Ok) {path : List Byte} (hp : ConfigFile w as path) :
    main w (as.flatMap Arg.words) = (environment w path).bind (serve w) := by
  obtain ⟨f, hf, h⟩ := command_line_partial as ha
  unfold main
  rw [h]
  dsimp only
  rcases hp with hp | ⟨hp, d, hd, hl, rfl⟩
  · rw [namedFile_inj hf hp]
  · rw [namedFile_inj hf hp]
    dsimp only
    rw [hd, default_file_partial hl]

/-- C105.  Whatever flags are given and whatever the configuration file holds, if the program starts, what queries meet is what the lines of the file
say, and the documented defaults where they say nothing.  Missing: lines that are not read as they should be, numbers that do not fit, huge files
(`FileFits`), values that cannot be read (`Readable`), strange directories (`Home`). -/
theorem started_partial {w : World} {as : List Arg} (ha : ∀ a ∈ as, a.Ok) {path dir : List Byte} (hp : ConfigFile w as path) (hh : Home w dir)
    {ss : List (List Byte)} {last : List Byte} {E : Nat} (hf : FileFits w path dir ss last E)
    (hw : ∀ ts tab, Seen 2048 (ss ++ [last]) ts → Reads (w.expand (dir ++ str "/") (directoryOf path)) (table dir) ts tab → Readable w tab)
    {r : Running} (h : main w (as.flatMap Arg.words) = some r) :
    ∃ ts tab cfg, Seen 2048 (ss ++ [last]) ts ∧ Reads (w.expand (dir ++ str "/") (directoryOf path)) (table dir) ts tab ∧
      Sources w tab cfg ∧ Pipeline.Configured r.env cfg ∧
      Holds tab "EnableUDPtoTCP" (.bool r.env.opts.udpToTcp) ∧ Holds tab "EnableTCPtoUDP" (.bool r.env.opts.tcpToUdp) ∧
      Holds tab "AP" (.bool r.env.ap) ∧ Holds tab "BlockIpv6WhenIpv4Exists" (.bool r.env.hosts.blockIpv6) ∧
      Holds tab "UseCache" (.bool r.env.cacheOn) ∧ Holds tab "BlockNegativeResponse" (.bool r.env.blockNegative) := by
  rw [main_serves ha hp] at h
  obtain ⟨c, ts, tab, h1, h2, h3, h4⟩ := options_partial hh hf
  rw [h1, Option.bind_some] at h
  obtain ⟨cfg, h5, h6⟩ := configured_partial h3 h4 h (hw ts tab h2 h3)
  obtain ⟨s1, s2, s3, s4, s5, -, s6⟩ := switches h3 h4 h
  exact ⟨ts, tab, cfg, h2, h3, h5, h6, s1, s2, s3, s4, s5, s6⟩

theorem default_held (dir : List Byte) (i : Nat) {k : String} {o : Opt} (hi : (table dir)[i]? = some (str k, .opt o)) : Holds (table dir) k o.val :=
  ⟨i, o, finds_keys (keys_eq dir) hi, rfl⟩

theorem loopback_port {q : List Byte} {p : Nat} (h : AddressList.PortText 53 q p) :
    AddressList.ServerText 53 (str "127.0.0.1" ++ q) .inet [127, 0, 0, 1] p := by
  have d : ∀ (c : Byte) (n : Nat), IpText.DecDigit c n → IpText.DecNum [c] n := fun c n h => .one h
  have h0 : IpText.DecNum (str "0") 0 := d 48 0 (by decide)
  have h1 : IpText.DecNum (str "1") 1 := d 49 1 (by decide)
  have h12 : IpText.DecNum (str "12") 12 := IpText.DecNum.more (c := 50) (d := 2) h1 (by decide)
  have h127 : IpText.DecNum (str "127") 127 := IpText.DecNum.more (c := 55) (d := 7) h12 (by decide)
  exact AddressList.ServerText.v4 (a := [127, 0, 0, 1])
    (AddressList.V4Plain.mk (a := 127) (b := 0) (c := 0) (d := 1) ⟨h127, by decide⟩ ⟨h0, by decide⟩ ⟨h0, by decide⟩ ⟨h1, by decide⟩) h

theorem loopback : AddressList.ServerText 53 (str "127.0.0.1:53") .inet [127, 0, 0, 1] 53 := by
  have h53 : IpText.DecNum (str "53") 53 := IpText.DecNum.more (s := str "5") (n := 5) (c := 51) (d := 3) (.one (c := 53) (by decide)) (by decide)
  exact loopback_port (q := str ":53") (.given h53 (by decide))

/-- C105: without a configuration file, the defaults are in effect. -/
theorem started_defaults {w : World} {as : List Arg} (ha : ∀ a ∈ as, a.Ok) {path dir : List Byte} (hp : ConfigFile w as path) (hh : Home w dir)
    (hf : w.file path = none) (hi : AddressList.InetOk w.inet) (hlog : ∀ n, w.logSquare n ≤ 1000) {r : Running} (h : main w (as.flatMap Arg.words) = some r) :
    r.udp = [⟨.inet, some [127, 0, 0, 1], 53⟩] ∧ r.tcp = [] ∧ r.env.cacheOn = true ∧ r.env.cache.cfg.size = 1048576 ∧
      r.env.cache.cfg.ignoreTTL = false ∧ r.env.cache.cfg.parallel = false ∧ r.env.cache.rules = none ∧
      r.env.opts = ⟨false, false⟩ ∧ r.env.ap = false ∧ r.env.lists = none ∧ r.env.blockNegative = false ∧ r.env.filter = ⟨none, none⟩ ∧
      r.env.hosts = ⟨none, none, false⟩ ∧ (∀ n, r.env.goodIp n = none) ∧
      Groups.load (groupWorld w) (Groups.Decl.udp (str "1.2.4.8,114.114.114.114") (str "*") (str "on")).tokens = some r.env.groups := by
  rw [main_serves ha hp] at h
  obtain ⟨c, h1, h2⟩ := defaults hh hf
  rw [h1, Option.bind_some] at h
  have hr : Reads (w.expand [] []) (table dir) [] (table dir) := .nil
  obtain ⟨s1, s2, s3, s4, s5, -, s6⟩ := switches hr h2 h
  have b1 := holds_inj s1 (default_held dir 10 rfl)
  have b2 := holds_inj s2 (default_held dir 11 rfl)
  have b3 := holds_inj s3 (default_held dir 14 rfl)
  have b4 := holds_inj s4 (default_held dir 27 rfl)
  have b5 := holds_inj s5 (default_held dir 32 rfl)
  have b6 := holds_inj s6 (default_held dir 17 rfl)
  injection b1 with b1
  injection b2 with b2
  injection b3 with b3
  injection b4 with b4
  injection b5 with b5
  injection b6 with b6
  obtain ⟨hne, us, tcps, l1, l2, l3, l4⟩ := listens_partial hr h2 h hi
  have hu := holds_inj l1 (default_held dir 3 rfl)
  have ht := holds_inj l2 (default_held dir 4 rfl)
  injection hu with hu
  injection ht with ht
  subst hu; subst ht
  have u1 := l3 _ (.cons loopback .nil)
  have t1 := l4 _ .nil
  have t1 : r.tcp = [] := t1
  obtain ⟨n, z1, z2, z3, z4, -, -, z5, z6⟩ := cache_size hr h2 h b5 hlog
  have z1 := holds_inj z1 (default_held dir 34 rfl)
  have z5 := holds_inj z5 (default_held dir 37 rfl)
  have z6 := holds_inj z6 (default_held dir 33 rfl)
  injection z1 with z1
  injection z5 with z5
  injection z6 with z6
  have hl := load_parts (serve_parts h).1
  refine ⟨?_, t1, b5, by omega, z5, z6, ?_, ?_, b3, ?_, b6, ?_, ?_, ?_, ?_⟩
  · rw [u1] at hne ⊢
    rw [List.filter_cons] at hne ⊢
    split at hne
    · rw [if_pos (by assumption)]; rfl
    · rcases hne with hne | hne
      · exact absurd rfl hne
      · exact absurd t1 hne
  · have hc := hl.cache
    unfold Startup.cache at hc
    rw [shown_int h2 (default_held dir 34 rfl), shown_bool h2 (default_held dir 32 rfl), shown_bool h2 (default_held dir 33 rfl),
      shown_bool h2 (default_held dir 37 rfl), shown_int h2 (default_held dir 38 rfl), shown_int h2 (default_held dir 39 rfl),
      (shown_str h2 (default_held dir 40 rfl)).2, shown_bool h2 (default_held dir 35 rfl)] at hc
    have e : CacheTtl.initRules (orNull (([] : List String).map str)) (-1) 1 = some none := rfl
    dsimp only at hc
    rw [if_neg (by decide), e] at hc
    dsimp only at hc
    rw [if_neg (by decide), if_neg (by decide), if_neg (by simp)] at hc
    simp only [Option.some.injEq, Prod.mk.injEq] at hc
    rw [← hc.2]
  · cases ho : r.env.opts with
    | mk a b => rw [ho] at b1 b2; dsimp only at b1 b2; rw [b1, b2]
  · have hm := hl.misc
    unfold Startup.misc at hm
    rw [(shown_str h2 (default_held dir 13 rfl)).2, (shown_str h2 (default_held dir 15 rfl)).2, (shown_path h2 (default_held dir 16 rfl)).2,
      shown_bool h2 (default_held dir 17 rfl)] at hm
    simp only [orNull, List.map_nil, if_true, and_self, Option.some.injEq, Prod.mk.injEq] at hm
    exact hm.1.symm
  · have hm := hl.filter
    unfold Startup.filter at hm
    rw [(shown_str h2 (default_held dir 43 rfl)).2, (shown_str h2 (default_held dir 44 rfl)).2, (shown_path h2 (default_held dir 45 rfl)).2] at hm
    exact (Option.some.inj hm).symm
  · have hm := hl.static
    unfold Startup.staticHosts at hm
    rw [(shown_str h2 (default_held dir 26 rfl)).2] at hm
    have hd := hl.dynamic
    unfold Startup.dynamicHosts getRaw at hd
    rw [(shown_path h2 (default_held dir 22 rfl)).2, (shown_str h2 (default_held dir 25 rfl)).1, (shown_path h2 (default_held dir 24 rfl)).1,
      shown_int h2 (default_held dir 23 rfl), shown_int h2 (default_held dir 28 rfl)] at hd
    have hm := (Option.some.inj hm).symm
    have hd := (Option.some.inj hd).symm
    cases ho : r.env.hosts with
    | mk a b d => rw [ho] at b4 hm hd; dsimp only at b4 hm hd; rw [b4, hm, hd]
  · intro n
    exact good_ip_partial h2 h [] [] (by simp) (by simp) (default_held dir 46 rfl) (default_held dir 47 rfl) n
  · obtain ⟨conf, g1, g2⟩ := hl.groups
    rw [(shown_str h2 (default_held dir 5 rfl)).2] at g1
    cases g1
    rw [orNull_getD] at g2
    exact g2

/-! ### A sample -/

/-- A system with this configuration file in the home directory. -/
def sampleWorld (home : List Byte) (config : Option (List Byte)) : World where
  home := some (some home)
  expand := fun _ _ p => p
  expandTo := some
  file := fun p => if p = home ++ str "/.dnsforwarder/config" then config else none
  write := fun _ => true
  timer := true
  up := fun _ _ => true
  inet := fun s => match IpText.v4ToNum s with | .ret _ (some a) => a | _ => [255, 255, 255, 255]
  udp := fun _ => true
  tcp := fun _ => true
  stuck := fun a => a.port = 5
  cacheFile := true
  inner := true
  logSquare := fun _ => 190
  fnm := fun _ _ => false
  junk := 0
  junkIp := []

/-- C104: the documented defaults hold for every home directory of a fair size. -/
def AnyDirectory : Prop := ∀ (w : World) (path dir h : List Byte), w.home = some (some h) → dir = h ++ str "/.dnsforwarder" → dir.length ≤ 1000 →
  (0 : Byte) ∉ dir → w.file path = none → ∃ c, environment w path = some c ∧ ShowsTable c (table dir)

/-- Not for one with a comma, which separates values. -/
theorem any_directory_false : ¬ AnyDirectory := by
  intro h
  obtain ⟨c, h1, h2⟩ := h (sampleWorld (str "/a,b") none) (str "x") _ (str "/a,b") rfl rfl (by decide) (by decide) (by decide)
  have h3 := (shown_path h2 (default_held (str "/a,b" ++ str "/.dnsforwarder") 36 (k := "CacheFile") rfl)).1
  have h4 : (environment (sampleWorld (str "/a,b") none) (str "x")).bind (fun c => Config.getStrings c 4 (str "CacheFile")) =
      some [str "/a", str "b/.dnsforwarder/cache"] := by decide +kernel
  rw [h1, Option.bind_some, h3] at h4
  exact absurd h4 (by decide)

example : (main (sampleWorld (str "/root") none) []).map (fun r => (r.udp, r.tcp, r.env.groups.modules, r.env.cache.cfg.size, r.env.cache.cfg.nslots)) =
    some ([⟨.inet, some [127, 0, 0, 1], 53⟩], [], [.udp], 1048576, 197) := by decide +kernel

def sampleFile : List (List Byte) := [str "AP true", str "UDPLocal 127.0.0.2,[::1]:54", str "DisabledType 28", str "DisabledDomain a.com, b.com # not these",
  str "AppendHosts 1.2.3.4 c.com", str "TCPGroup 1.1.1.1 * off no", str "CacheSize 200000"]

/-- What is listened on and what happens to three queries. -/
example : (main (sampleWorld (str "/root") (some (text sampleFile []))) [str "-q"]).map (fun r => (r.udp, r.tcp, r.env.groups.modules, r.env.cache.cfg.size, r.env.ap)) =
    some ([⟨.inet, some [127, 0, 0, 2], 53⟩, ⟨.inet6, some [0, 0, 0, 0, 0, 0, 0, 0, 0, 0, 0, 0, 0, 0, 0, 1], 54⟩], [], [.tcp], 200000, true) := by decide +kernel

/-- C106: every TCP address that can be listened on is. -/
def EveryAddress : Prop := ∀ (w : World) (c : Cfg) (r : Running) (l : List (List Byte)) (ss : List AddressList.Sock), serve w c = some r →
  getS c (str "TCPLocal") = some (some l) → Sockets l ss → r.tcp = ss.filter (fun a => w.tcp a && !w.stuck a)

/-- Not those behind one that `listen` fails for. -/
theorem every_address_false : ¬ EveryAddress := by
  intro h
  have h0 : (((environment (sampleWorld (str "/root") (some (text [str "TCPLocal 127.0.0.1:5,127.0.0.1:53"] []))) (str "/root/.dnsforwarder/config")).map
      fun c => (getS c (str "TCPLocal"), (serve (sampleWorld (str "/root") (some (text [str "TCPLocal 127.0.0.1:5,127.0.0.1:53"] []))) c).map (·.tcp)))) =
      some (some (some [str "127.0.0.1:5", str "127.0.0.1:53"]), some []) := by decide +kernel
  have h1 : (sampleWorld (str "/root") (some (text [str "TCPLocal 127.0.0.1:5,127.0.0.1:53"] []))).tcp = (fun _ => true) ∧
    (sampleWorld (str "/root") (some (text [str "TCPLocal 127.0.0.1:5,127.0.0.1:53"] []))).stuck = (fun a => decide (a.port = 5)) := ⟨rfl, rfl⟩
  generalize sampleWorld (str "/root") (some (text [str "TCPLocal 127.0.0.1:5,127.0.0.1:53"] [])) = w at h0 h1
  rw [Option.map_eq_some_iff] at h0
  obtain ⟨c, -, h0⟩ := h0
  simp only [Prod.mk.injEq, Option.map_eq_some_iff] at h0
  obtain ⟨h2, r, h3, h4⟩ := h0
  have h5 := h w c r _ _ h3 h2 (.cons (loopback_port (q := str ":5") (p := 5) (.given (.one (c := 53) (by decide)) (by decide))) (.cons loopback .nil))
  rw [h4, h1.1, h1.2] at h5
  exact absurd h5 (by decide)

/-- A line of a small file. -/
theorem ap_pair {k v : List Byte} (h : Pair (str "AP true") k v) : k = str "AP" ∧ v = str "true" := by
  have h1 := split_of_pair h
  have h2 : splitLine (str "AP true") = some (str "AP", str "true") := by decide
  rw [h2] at h1
  simp only [Option.some.injEq, Prod.mk.injEq] at h1
  exact ⟨h1.1.symm, h1.2.symm⟩

theorem ap_visible {t : List Byte} (h : Visible (str "AP true") t) : t = str "AP true" :=
  visible_whole h (by decide) (by decide) (by decide)

theorem empty_visible {t : List Byte} (h : Visible [] t) : t = [] := visible_whole h (by simp) (by simp) (by simp)

theorem ap_seen {ts : List (List Byte)} (h : Seen 2048 [str "AP true", []] ts) : ts = [str "AP true"] := by
  cases h with
  | blank h1 _ => exact absurd (ap_visible h1) (by decide)
  | long h1 _ => exact absurd h1 (by decide)
  | line h1 _ h3 =>
    rw [ap_visible h1]
    cases h3 with
    | blank _ h4 => cases h4; rfl
    | line h4 h5 _ => exact absurd (empty_visible h4) h5
    | long h4 _ => exact absurd h4 (by decide)

theorem ap_names {dir d : List Byte} {i : Nat} {o : Opt} {p : Option (List Byte)} (h : Names (table dir) (str "AP") i o p d) :
    i = 14 ∧ o = ⟨false, .default, [44], .bool false⟩ := by
  have := names_inj (Names.option (finds_keys (keys_eq dir) (i := 14) rfl)) h
  exact ⟨this.1.symm, this.2.1.symm⟩

/-- The hypotheses of `started_partial` are met by a small file, and the program starts. -/
theorem sample_fits : FileFits (sampleWorld (str "/root") (some (text [str "AP true"] []))) (str "/root/.dnsforwarder/config") (str "/root/.dnsforwarder") [str "AP true"] [] 0 := by
  refine ⟨by decide, fun p hp => ⟨hp, Nat.le_refl _⟩, ?_, ?_, by decide, .inl rfl, ?_, ?_⟩
  · intro s hs
    simp only [List.mem_singleton] at hs
    subst hs
    exact .inl ⟨⟨by decide, by decide, by unfold ReadLine.CrOk; decide,
      fun u r e _ => absurd (show (35 : Byte) ∈ str "AP true" by rw [e]; simp) (by decide)⟩, by decide⟩
  · exact ⟨by simp, by simp, by unfold ReadLine.CrOk; simp, fun u r e _ => by simp at e⟩
  · intro s hs t ht k v i o pre d old n hp hn hv _
    simp only [List.cons_append, List.nil_append, List.mem_cons, List.not_mem_nil, or_false] at hs
    rcases hs with rfl | rfl
    · rw [ap_visible ht] at hp
      rw [(ap_pair hp).1] at hn
      rw [(ap_names hn).2] at hv
      cases hv
    · rw [empty_visible ht] at hp
      obtain ⟨x, w', e, -⟩ := hp
      simp at e
  · unfold Config.Fits
    decide +kernel

theorem sample_kept : ∀ ts tab, Seen 2048 [str "AP true", []] ts → Reads (fun p => p) (table (str "/root/.dnsforwarder")) ts tab →
    ∀ (i : Nat) (k : String) (o : Opt), i ≠ 14 → (table (str "/root/.dnsforwarder"))[i]? = some (str k, .opt o) → Holds tab k o.val := by
  intro ts tab h1 h2 i k o hi hk
  refine kept h2 hk (fun s hs k' v o' p d hp hn => ?_)
  rw [ap_seen h1, List.mem_singleton] at hs
  subst hs
  rw [(ap_pair hp).1] at hn
  exact hi (ap_names hn).1

theorem sample_readable : ∀ ts tab, Seen 2048 ([str "AP true"] ++ [[]]) ts → Reads (fun p => p) (table (str "/root/.dnsforwarder")) ts tab →
    Readable (sampleWorld (str "/root") (some (text [str "AP true"] []))) tab := by
  intro ts tab h1 h2
  have hk := sample_kept ts tab h1 h2
  refine ⟨fun l hl => ?_, fun ps hps => ?_, fun l hl => ?_, fun f l content hf hc => ?_, fun ds hds => ?_⟩
  · have := holds_inj hl (hk 43 "DisabledType" _ (by decide) rfl)
    injection this with this
    exact ⟨[], by rw [this]; exact .nil⟩
  · have := holds_inj hps (hk 45 "DisabledList" _ (by decide) rfl)
    injection this with this
    rw [this]
    simp
  · have := holds_inj hl (hk 26 "AppendHosts" _ (by decide) rfl)
    injection this with this
    exact ⟨[], by rw [this]; exact .nil⟩
  · have := holds_inj hf (hk 24 "HostsDownloadPath" _ (by decide) rfl)
    injection this with this
    simp only [List.cons.injEq] at this
    rw [this.1] at hc
    have hn : (sampleWorld (str "/root") (some (text [str "AP true"] []))).file (str "/root/.dnsforwarder" ++ str "/hosts.txt") = none := by
      decide
    rw [hn] at hc
    cases hc
  · have := holds_inj hds (hk 5 "ServerGroup" _ (by decide) rfl)
    injection this with this
    intro d hd
    have hnofile : ∀ p, d ≠ .file p := by
      rintro p rfl
      have : str "FILE" ∈ ds.flatMap Groups.Decl.tokens := List.mem_flatMap.2 ⟨_, hd, by simp [Groups.Decl.tokens]⟩
      rename_i hthis
      rw [hthis] at this
      exact absurd this (by decide)
    have hin : ∀ x ∈ d.tokens, x ∈ ["UDP", "1.2.4.8,114.114.114.114", "*", "on"].map str := by
      intro x hx
      rw [← this]
      exact List.mem_flatMap.2 ⟨d, hd, hx⟩
    have hsmall : ∀ x ∈ ["UDP", "1.2.4.8,114.114.114.114", "*", "on"].map str, (0 : Byte) ∉ x ∧ x.length ≤ 500000000 := by decide +kernel
    refine ⟨?_, fun p content hu => ?_⟩
    · cases d with
      | udp a b c => exact hsmall _ (hin b (by simp [Groups.Decl.tokens]))
      | tcp a b c e => exact hsmall _ (hin b (by simp [Groups.Decl.tokens]))
      | file p => trivial
    · rcases hu with e | ⟨q, content, ts, is, e, -⟩
      · exact absurd e (hnofile p)
      · exact absurd e (hnofile q)

theorem sample_started : ∃ r ts tab cfg, main (sampleWorld (str "/root") (some (text [str "AP true"] []))) (([Arg.quiet] : List Arg).flatMap Arg.words) = some r ∧
    Reads (fun p => p) (table (str "/root/.dnsforwarder")) ts tab ∧ ts = [str "AP true"] ∧
    Sources (sampleWorld (str "/root") (some (text [str "AP true"] []))) tab cfg ∧ Pipeline.Configured r.env cfg ∧ Holds tab "AP" (.bool r.env.ap) := by
  have hmain : (main (sampleWorld (str "/root") (some (text [str "AP true"] []))) (([Arg.quiet] : List Arg).flatMap Arg.words)).isSome = true := by
    decide +kernel
  obtain ⟨r, hr⟩ := Option.isSome_iff_exists.1 hmain
  obtain ⟨ts, tab, cfg, h1, h2, h3, h4, -, -, h5, -⟩ := started_partial (as := [.quiet]) (by simp [Arg.Ok])
    (.inr ⟨.none (by simp), str "/root", rfl, by decide, by decide⟩) ⟨⟨str "/root", rfl, by decide⟩, by decide, by decide, by decide⟩ sample_fits
    sample_readable hr
  exact ⟨r, ts, tab, cfg, hr, h2, ap_seen h1, h3, h4, h5⟩

end Verif.Startup
