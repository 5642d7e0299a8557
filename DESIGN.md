# Formal model of dnsforwarder in Lean 4

The source is `/repo` (C). The model is in `lean/Verif/`. Nothing in `/repo` is built or run:
the tie between code and model is reading. Every model definition carries a comment with the
file and the lines it models and says where it simplifies.

## Layout

* `Verif/Model/*.lean` – the model, one file per C file or group of functions.
* `Verif/Spec/*.lean` – small specifications written without reference to the model.
* `Verif/Lemmas/*.lean` – helper lemmas.
* `Verif/Props/*.lean` – the property theorems, each with an `example` showing that a concrete
  non-trivial case meets the hypotheses.
* `properties.jsonl` – the properties; `MANIFEST.json` – which theorem settles which property;
  `seeded/LOG.jsonl` – the wrong programs tried against the theorems.

## Modelling conventions

* Bytes are `UInt8`, C strings are lists of bytes without the NUL, packets are lists of bytes.
* Pointers into a buffer are offsets (`Nat`). Mutation returns the new value.
* A read or write outside its object is a separate outcome (`oob`), never a default value.
* Loops that may not terminate take fuel and have an outcome `diverge`/`none`; non-termination is
  stated as "for every fuel the outcome is out-of-fuel", termination as "some fuel suffices".
* `int`/`uint32_t` are `Int`/`Nat` unless a property depends on wrap-around; there the reduction
  mod 2^32 is explicit.
* External calls (`time`, `rand`, `fnmatch`, `select`, `recv`, `malloc`) are parameters.

## Plan per property

| id | modelled | proof |
|----|----------|-------|
| C01 | `DNSLabelizedName`, `DNSGetHostName`, `DNSJumpOverName` | round trip by induction over labels |
| C02 | `DNSGetHostName` with explicit output bound | invariant of the loop |
| C03 | same, with fuel | negation by a self pointer; partial: well-founded measure on pointers |
| C04 | same, with read trace | negation by witness; partial: exact bound |
| C05 | iterator initialisation and classification | case analysis, arithmetic |
| C06 | iterator step over an abstract skip function | induction over steps |
| C07 | generator record writers and record readers | round trip |
| C08 | generator with buffer length | case analysis; negations by witness |
| C09 | `DNSCompress`, messages with any number of questions | induction over answers |
| C10 | TCP send path | round trip over concatenations |
| C11–C13 | `dnscache.c` on `cacheht.c` | refinement of slot chains to a multiset of records |
| C14 | chunk allocator of cacheht/dnscache | invariant: contiguous blocks ordered by index |
| C15 | `Generate` | case analysis; negation by witness |
| C16 | duplicate check | negation by witness; partial |
| C17 | TTL control decision | case analysis |
| C18 | `simpleht.c`, `stringchunk.c` | invariant: chain = descending indices of a slot |
| C19,C20 | `Domain_Match_NoWildCard` | induction over the string |
| C21 | `StrToLower` + match | negation + partial |
| C22 | `filter.c` | uses C18/C19/C32 |
| C23,C24 | `MMgr_Send` | case analysis with a trace of effects |
| C25 | hosts container and Try | induction over the load sequence; `Spec/HostsFate.lean` says of each well-formed query what becomes of it, `hosts_decide` that it does, `all_decided` that no case is left out; an alias that is no name is refuted by a hosts line |
| C26,C27 | `utils.c` text conversion | round trip |
| C28 | `ipchunk.c` on the tree | invariant + negation |
| C29 | `IpMisc_Process` | induction over answers |
| C30–C33 | `mcontext.c` on `bst.c` | refinement to a multiset |
| C34 | frontend loop with a retained header | two-packet witness; positive theorem; for all well-formed messages, with any questions (`Props/HeaderAll.lean`), names that are too long (`Props/LongName.lean`) or none (`Props/NoQuestion.lean`), what the header says, by induction over the walk |
| C35 | `addresslist.c` | arithmetic |
| C36 | `linkedqueue.c`, `timedtask.c` | invariant sortedness |
| C37 | `stablebuffer.c` | invariant |
| C38 | `stringlist.c` | induction |
| C39,C40 | `readconfig.c`, `readline.c` | induction over lines |
| C41 | reader/writer-lock transition system; the four kinds of data differ in a `Mode` | invariant over all interleavings |
| C42 | `IsPrime`, `FindNextPrime` | number theory |
| C43 | TCP upstream receive | induction over chunks, negation |
| C44 | upstream response decision | case analysis |
| C45 | hash comparison of pending queries | negation by two real names; partial without collisions |
| C46 | `StringChunk_Domain_Match_NoWildCard` for "" | negation by witness; partial |
| C47 | `FilterType_Init` | negation by witness; induction over the list |
| C48 | `DNSGetHostName` | negation; injectivity of the text |
| C49 | `MsgContext_AddFakeEdns` on the generator | negation (endless loop); exact result otherwise |
| C50 | `DnsGenerator_Init`, `StripedLength` | negation; exact result |
| C51–C53 | text forms of addresses | independent grammar (RFC 5952 / RFC 4291); negations by witness |
| C54 | `DNSCache_CacheMinTTL` | negation; invariant |
| C55, C57 | `ipchunk.c`, `ipmisc.c` loading | negations; induction over lines |
| C56 | `IPMisc_Process` on the parser | negation; induction over answers |
| C58 | `timedtask.c` | negation; invariant |
| C59 | `array.c` | refinement to lists |
| C60 | `AddressList_ConvertFromString` | negation; grammar of addresses |
| C61 | alignment in `stablebuffer.c` | negation; invariant |
| C62 | `StringList_AppendLast` | negation; refinement to lists |
| C63 | `mmgr.c` module loading on `readconfig.c` | induction over statements |
| C64 | `hostscontainer.c` | induction over lines; negations by witness |
| C65, C66 | `dnscache.c` on parser, generator and store | history invariant; negations by witness; an MX record of fewer than two bytes reads outside it (`Props/ShortMx.lean`) |
| C67, C68, C70 | transition system of the whole program (`Forwarder`, `SameName`) | invariant: every waiting entry stems from a received query; negation for the type |
| C69 | send path of both modules | case analysis; negation for TCP |
| C71, C72 | `tcpm.c` byte streams, SOCKS5 | parametric in what `send`/`recv` return; induction over pieces |
| C73 | `socketpuller.c`, `socketpool.c` | invariant over histories |
| C74–C78 | `tcpfrontend.c` as a transition system | invariant over all interleavings; negations by witness |
| C79–C83 | connection pools of `tcpm.c` | invariant over all histories of an arbitrary environment |
| C84–C86 | `goodiplist.c` | grammar of the lines; invariant over all histories of checks |
| C87, C88 | `domainstatistic.c` | refinement to a tally of the history; parsing back the page |
| C89 | `logs.c` | induction over messages |
| C90–C92 | the cache file: every operation as a list of single stores (`CacheFile`) | invariant that allows lost nodes and gaps holds after every step; induction over lives; negations by witness |
| C93 | test of the sweep beside the stores of another thread | the same invariant; negation by witness |
| C94–C96 | `GetAllAnswers`, `TextifyData` on the parser | invariant on the space left; specification of the lines per record type; negations by witness |
| C97 | `ReplaceStr…` | inductive specification, induction over the text |
| C98–C100 | `downloader.c` (libcurl) with a file system and a network that answer anything | all states of the files kept; invariant over the calls; relational specification of what sources give; negations by witness |
| C101 | the update of the hosts down to the lookups | composition with C40, C64, C25 |
| C102, C103 | `ArgParse` with words behind the arguments as an outcome; the path of the default file with its buffer | induction over the arguments; bounds; negations by witness |
| C104 | `EnvironmentInit`: 54 declared options, the file on top | the table of the specification is shown to be what the declarations give; refinement of C09 |
| C105, C106 | `main`, `MMgr_Init` and the initialisation of every stage from the options; the outside (home, files, expansion of paths, binding) is a parameter | composition: what the options hold (C104) is carried through each loader to the specification of the stages used by C23 |
| C107 | the whole forwarder (`Model/Forwarder.lean`) | invariant: while nothing else uses the identifier at a module, what waits there under it belongs to the client; it waits until answered or swept; the search finds it; case analysis of every event; second theorem (`Props/Shared.lean`): others may use the identifier for other names if the hashes lie on one half of the circle of 32-bit numbers, where the comparison of the table is an order and the search finds what is stored; third theorem (`Props/AnsweredAll.lean`): any number of questions; false of a response that leaves out the last question (`oneOfTwo_false`, witness) |
| C108 | `HostsUtils_GenerateQuery`, `HostsUtils_CombineRecursedResponse` with `DNSCopyLable`, the copying functions of the generator and `DNSCompress` | what a name denotes is what is copied, by induction over the compressed name; the loop appends a record per answer; correctness of the compression from C45; negation by witness; the data of an address are what lies at their place in the buffer, whatever their length (`Seen`) |
| C109 | Whole histories of the program (client queries, alias worker, servers, sweeps): from the client's query for a name with an alias to the message it gets (`alias_answered_partial`) | invariant: the client's query sits at its place in the worker's table as long as nothing else uses its identifier (`Held`, `held_run`), and whatever waits at the server's module with the worker's identifier refers to that place (`OnlyAt`); the reply itself by C108. False in general: an answer that comes after the worker gave up is combined with the query of another client that has the place by then (`ownTarget_false`). |
| C110 | the whole forwarder as for C107 and C109, with everything it calls: header filling, filter, hosts data, cache, group choice, address lists, name decoding and copying; undefined behaviour and running out of steps are outcomes of the model | progress and preservation: messages with any number of questions of class IN and any records; an invariant (the cache is what well-formed responses made of it; every waiting or queued header has a valid name and, if its reply goes to the alias worker, refers to a node that exists; every reply on its way to the worker is a well-formed message) makes every event defined and is kept by it (`progress`), by induction over histories (`well_formed_processed_partial`); false for arbitrary messages (`anything_false`), and for well-formed ones whose cached answers do not fit the buffer (`anyContents_false`, a history of three events and a query) |
| C111 | the life of the groups: workers, sweepers, senders (under the reading lock), the loading thread (writing lock), one cleaning thread per replaced set, each as a small automaton whose steps touch and free parts of a group; using or freeing a freed part is an outcome of the model | an invariant that ties what is freed to where the threads are and to whether the set is in use, kept by every step of every thread (`safe_partial`, `works_partial`); a construction of a terminating schedule from ranks of the automata (`replaced_freed_partial`); for unending fair executions the same ranks give that replaced groups are freed (`replaced_eventually_freed_partial`); false with socket failures, failing reloads and proxied groups (`safe_false` and three schedules) |
| C112 | the whole program with its threads (`Verif.Threads`): what `Verif.Forwarder` does with a message in one step is cut at every access to something shared (filter, hosts data, cache, groups, tables, sockets); a step of any thread, or a reload, may come between | the invariant of C67 extended by what is owed with the message each thread is at work on, kept by every step of every thread (`replies_owed_partial`); every history of C67 is shown to be one of these (`one_after_the_other`), which also carries the counterexample over (`replies_owed_false`) |
| C113 | the same model; `Spec/ThreadsProgress` says which messages are well-formed and what a step needs (the cache fits when it is asked, the groups run when one is chosen) | the invariant of C110 extended by what is known of the message each thread is at work on; each of the ten kinds of steps is shown to be made and to keep it, monotone in the memory of the alias worker and the number of groups (`well_formed_processed_partial`); `anything_false` |
| C114 | `Model/Locks`: the lock operations and accesses to shared data of every thread, function by function, as small programs with choices and loops; any number of threads, made at any time, in any interleaving | a discipline (locks in increasing order, everything given back, no waiting while holding) that every program keeps to is an invariant of all reachable states; induction on the order of the locks (`waits_end`, `no_circle`); `repliesOutside_false` |
| C115 | the same model, with the flag `SkipStatistic` | the discipline also says which lock an access needs; readers-writer exclusion is an invariant, and for the statistics that who has seen the flag unset holds the lock (`race_free_partial`); races as reachable states (`sock_race`, `other_races`) |
| C116 | `Model/Memory.lean`: the requests for memory and what is given back, for arrays, stable buffers, socket pools, pointer lists, UDP and TCP groups with all exits of their set-up, string chunks, hosts, disabled domains, mapped addresses and the map of the groups; a second `free` of a block, or following a pointer never set, is a distinct outcome; which requests are refused is a parameter. Only blocks are modelled, not what is in them; what lines or queries make grow is left open (any list of growth steps). | Triples over the multiset of owned blocks, with a frame rule; success and crash triples for the set-up and stop of TCP groups; the false claims by concrete witnesses and, for groups with proxies, for all of them. |
| C117 | `main`, `serve`, `load` and all the loaders of the options, as in C102-C106; `Proper` says what the documented forms of the values are, `CanStart` what the program needs | each loader is total on documented values (`filter_some`, `misc_some`, `static_some`, `goodIp_some`), the listening sockets, groups, cache, log, statistics and updates are decided exactly (`place_iff`, `groups_iff`, `cache_iff`, `logs_iff`, `statistic_iff`, `dynamic_iff`), together `starts_partial`; the defaults in `starts_defaults` |
| C118 | everything from `main` to `MMgr_Send` (`Model/Startup.lean`, `Model/Forwarder.lean`) | composition (`Props/EndToEnd.lean`): C105 gives the configuration the stages hold, an invariant over all events gives that the modules are those of the groups, C23 gives the stage that takes care, and each outcome is computed through `step`; `Props/EndToEndAll.lean` does it for any questions and for configurations exchanged at run time |
| C119 | `Model/UdpUp`: `UdpM_Init` from the text of the servers; the socket, the list of servers, the count of time-outs and the parallel servers of a group; events are the worker making a socket, waiting (error, nothing, a message), a query being sent, a sweep with `n` expired queries, and stopping. `sendto` is recorded with the family of the socket. | Invariant over all histories (`Holds`) gives the servers of each query as a function of the number of sweeps with losses; `Proper` describes the life of sockets; two negations with witnesses, one of them an induction over histories of any length |
| C120 | As C119; messages carry their sender | Negation with a witness; the sender is shown to make no difference |
| C121 | `Model/Local`: `TryBindLocal` with arbitrary outcomes of `socket` and `bind` at every attempt, and the sequence of calls the program makes | Induction over the attempts and over the calls; negation with a witness in `HostsLoop.outer` |
| C122 | `domainstatistic.c` 38-85 (the template) and 87-183 (the page as a file that is written over, with queries before and during) | the table only grows, so that pages get no shorter and cover the one before; the parts of the page by computation |
| C123 | the trees with their list of free nodes (`bst.c`), the tables of C30–C33, the whole program of C67 and the statistics of C87; all as modelled there | every node is either in the tree or in the list of free nodes, and a new one is taken only if that list is empty; by induction over the history; with sweeps every g seconds all waiting queries are younger than g + 2 seconds; 2^32 different names show that the statistics grow |
| C124 | where the texts with the servers' names of the groups are, when the ones of group files are freed, and when the workers read them (`ServerNames`) | False (witness: a group file, then an empty datagram); an invariant between the state and the history gives exactly the histories in which freed memory is read |
| C125 | two runs of the whole program model up to a query, `MMgr_Send` with all stages | the header of a query of class IN does not depend on the one before (C34), the decision only on header, configuration and cache; what is added to the queues is compared; negation by a query of class CH |
| C126 | the update thread: `DynamicHosts_Load`, `Filter_Update`, `IpMiscMapping_Update`, `Modules_Update`, and when updates are scheduled; the system at each update is a parameter | induction over the updates from the state after the start (C105); each stage is either reloaded by the function modelled for the start or kept; composed with C118 for queries; negations by small configurations |
| C127 | the table of descriptors from the start of `main` to the pipe of the timer, the pipe as bytes, tasks of 64 bytes, `system` for the script | invariant over histories: the first three descriptors are untouched and the pipe holds whole tasks; which descriptors the pipe gets in the background follows for every table; negations by a script that prints and one that reads |
| C128 | mask and permissions of files, opening, renaming and removing | induction over histories: modes stem from old files or from what is asked for without the mask; negation with mask 022 in the background |
| C129 | `ExpandPath`, `ExpandPathTo` with `wordexp` as a parameter, what is never set as undefined | replacing of quotation marks is filtering (from C97), then by cases on what `wordexp` gives; negations with a small `wordexp` |
| C130 | What `recvfrom` leaves in the buffer of a worker (`Model/Received`: the size of `IHeader` on LP64, the room left of 4096 bytes) in front of the `response` event of the program | `whole_partial` from `answered_all_partial`; `whole_false` from a run of the program with a response of more than 3704 bytes |
| C131 | The cache, the generator and `fetch` as for C65 | `complete_partial` from `hit_answered_partial`, over the count in the header of what is sent; `complete_false` from a history with two addresses and a query that leaves space for one |
| C132 | The whole program as for C107: what leaves it towards clients | `fits_partial` by induction over the history, from the length of the message in each stage; `fits_false` from a run with a TCP group |
| C133 | The whole program as for C107, with the hosts data and the cache | `local_edns_partial` from what each local source is proved to reply (C25, C50, C65); `asked_as_is`; `own_edns_false` from a run with active protection |
| C134 | As for C130, in front of the `udpQuery` event of the program | `query_whole_partial` from `asked_as_is`; `query_whole_false` from a run with a query of more than 3704 bytes |
| C135 | the whole program (`Forwarder`), its cache as operations on the store | every event only adds to the store, but for the timer that sweeps it; a record that is held stays until it expires (C13), so that the query meets it (C65) and no group is chosen; a record of a response that is passed on is stored (C12) and not displaced by the others of the response (`learned_partial`); the claim for all types refuted by a run |
| C136 | `Model/TcpUp`: `AddressList_GetPtrList`, the reading of the lines of servers and proxies in `TcpM_Init`, and the `socket`/`connect` call (or request to the proxy) for each action of `TcpPool` | the arrays are those of the line's addresses (as C119), names among them being passed over; numbers in actions are below the number of addresses by C79; without proxies none is asked, since a request needs a connection begun to a proxy |
| C137 | `Model/Prepare`: `PrepareEnvironment` behind the command line of `Startup`; `getpwuid` and the outcome of `mkdir` are parameters | induction over the words before `-p`; the claims without a bound refuted by a home directory of 299 bytes and by a user without an entry |
| C138 | `EnvironmentInit` in `Model/Startup` (the two variables and the file), `GetPathPart`; `Spec/Folder` says what the folder of a file is | the last slash divides a path in one way only; agreement of the configurations read with two expansions that agree on the two folders; refuted for paths over 1023 bytes by a witness of 1208 |

Properties added later are described in `properties.jsonl` and, with the theorems, in `MANIFEST.json`.

A property that is false of the code is written out in full as a `def … : Prop` in the property file, with
a theorem `…_false : ¬ …` whose proof is a concrete run, and a theorem `…_partial` for what does hold.
`MANIFEST.json` says `partial` for these, also where the part that fails cannot be repaired without
changing the program.

## Where the code and its documentation or intention disagree

Each of these is a theorem about the model, with a concrete witness.

* Names: a compression pointer to itself never ends (`Name.self_pointer_loops`); up to three bytes behind the
  message are read (`Name.reads_inside_false`); skipping a name has no bound at all (`Name.skip_reads_unbounded`).
* Messages: without a question the sections are shifted (`Parser.walk_exact_false`), so blocked addresses pass
  (`IpMisc.never_passed_false`); a record may begin directly behind the message (`Parser.walk_inside_false`).
* Frontend: a packet that is not understood leaves the previous client's header in place
  (`Msg.nothing_stale_false`), so that other client gets a second reply (`Forwarder.replies_owed_false`).
* Building replies: raw data and long queries overrun the buffer (`Generator.append_in_bounds_false`,
  `Generator.init_in_bounds_false`, `Hosts.reply_overflow`); PTR and NS come back from the cache as CNAME
  (`Generator.type_kept_false`); adding EDNS to a query that has additional records never ends
  (`Generator.edns_added_false`).
* Pending queries: differences of 32-bit hashes overflow so that waiting queries are not found
  (`MContext.response_found_false`); names with equal hashes are not told apart (`MContext.delivered_same_name_false`);
  the type asked for is not compared (`Forwarder.same_question_false`).
* Cache: records whose data begin alike are lost (`Cache.distinctKept_false`); a server can place records for
  names it was not asked about (`DnsCache.asked_only_false`); the second of two aliases gets a wrong owner
  (`DnsCache.two_aliases_false`), and NS and PTR are answered with aliases (`DnsCache.type_asked_false`); with `CacheParallel` an ignored TTL does not keep
  records (`Cache.keptForever_false`); lifetimes wrap at 2^32 and a record's own rule is looked up under the wrong
  text (`CacheTtl.documented_false`, `CacheTtl.noWrap_false`).  `OverrideTTL`/`MultipleTTL` make passive rules,
  though documented as equal to an active `CacheControl *`.
* Cache file: a program killed while it publishes a record, recycles a block, grows the index or makes the file
  leaves a file on which lookups never end (`CacheFile.killedUsable_false`), records get lost
  (`CacheFile.killedKeeps_false`), the header is overwritten (`CacheFile.headerSafe_false`) or the program divides
  by zero (`CacheFile.createSafe_false`); a file that is refused is changed (`CacheFile.refusedUnchanged_false`);
  a damaged one is taken (`CacheFile.check_blind`, `CacheFile.damaged_loops`).  The sweep tests records without the
  lock and can remove one just stored (`CacheFile.sweepKeeps_false`).
* Rules: entries with capital letters never match (`StringChunk.uppercase_rule_dead`); the root name matches what
  the previous query matched (`StringChunk.root_matches_only_root_false`); a malformed type disables whatever was
  on the stack (`Filter.bad_type_harmless_false`); the documented group file does not load
  (`Groups.documented_example_fails`); default groups ignore the kind of transport (`Groups.only_fitting_false`).
* Addresses: `256.0.0.1` is read as `0.0.0.1` (`IpText.v4_rejects_false`); `::` alone and embedded IPv4 are
  not read (`IpText.v6_accepts_false`, `IpText.v6_mixed_false`); address blocks can hide each other
  (`IpChunk.exact_false`); the round robin is unfair when its counter wraps and divides by zero for no servers
  (`AddressList.fair_false`, `AddressList.empty_undefined`).
* Files: long lines are misread (`ReadLine.every_line_false`, `Config.every_file_false`); an alias cycle in the
  configuration never ends (`Config.alias_cycle`); `on` means off (`Config.on_is_off`).
* Reloading server groups frees what other threads use when it fails part-way (`Reload.failed_reload_unsafe`,
  `Reload.no_socket_unsafe`).
* TCP: responses and queries in several pieces are lost (`TcpStream.read_whole_false`, `TcpFrontend.passed_on_false`);
  every client that closes leaves a descriptor open until `FD_SET` is undefined (`TcpFrontend.leak`,
  `TcpFrontend.exhausted`); a silent client stops all others (`TcpFrontend.never_stuck_false`); a reply may go to
  another client's connection with the same number (`Forwarder.same_connection_false`); a module's descriptor is closed
  twice (`TcpPool.stops_clean_false`).
* Named address lists: lines without an address read uninitialised memory (`GoodIpList.reads_any_false`,
  `GoodIpList.hands_out_garbage`); a refused connection counts as the fastest (`GoodIpList.fastest_accepts_false`).
* Statistics and logs: `Statistic.*_false`, `Statistic.star_swallows`, `Logs.log_complete_false`,
  `Logs.unreadable_lost`.  The text of a message can overrun its buffer by one byte (`Show.never_overruns_false`), shows
  bytes behind the message (`Show.depends_on_message_false`), hides records behind one of another class
  (`Show.shows_records_false`) and lets a server write lines of its own (`Show.no_forged_lines_false`).
* Updates of the hosts: the file is missing for a moment (`Downloader.always_there_false`), errors of writing count as
  success (`Downloader.success_complete_false`), a source that cannot be reached blocks all
  (`Downloader.update_ends_false`), one that cannot be read loses its entries (`Downloader.unreadable_stays_false`).

## Trusted base

* Lean 4.33.0's kernel. The axioms are at most `propext`, `Classical.choice`, `Quot.sound`, for every theorem;
  no `sorry`, no axiom, no `native_decide`, no `bv_decide`, no `implemented_by`.
* The reading of the C code into the model (see the comments at each definition). Nothing checks it but reading.
* The meaning given to C: `int` 32 bit, two's complement where unsigned, overflow of signed integers and accesses
  outside an object are undefined and appear as separate outcomes; `char` comparisons as on Linux; the "C" locale for
  `isspace`, `tolower`; Linux for `errno` numbers, `select` and `FD_SETSIZE` (1024). The POSIX branches of the code.
* The behaviour of external calls as stated where they are parameters:
  * `time`, `rand`, `fnmatch`, `select`, `send`, `recv`, `accept`, `connect`, `socket`, `rename`, `fopen`: arbitrary
    results unless a hypothesis of the theorem says otherwise;
  * `malloc` succeeds (except where the model has an explicit refusal: cache, stable buffer);
  * reading a file gives its bytes, errors while reading are not modelled; writing to an open file succeeds;
  * `inet_addr` is taken to read dotted decimal text; `getaddrinfo` and name resolution are not modelled;
  * `ExpandPath` is a parameter of the configuration model (C129 is about itself, with `wordexp` as a parameter).
* Kills: the stores of a killed program are made in the order of the source and are in the file (shared mapping); the
  compiler's order and power failures are outside the model.
* Concurrency: every section under a lock is one step. Interleavings of such steps are modelled for reloading (`Reload`),
  for the whole program (`Forwarder`), the TCP frontend and the TCP modules. Data races outside the locks are not
  modelled, except in `Reload` and for the sweep of the cache (`CacheFile.race`).

### What is simplified

* `Reload`: one UDP module per map; the store of the thread handle after thread creation is not modelled.
* `Groups`: success of starting a module and the files are parameters; if the UDP module of a `*` file fails the code
  still starts the TCP one before giving up.
* `HostsContainer`, `StringList`, `GoodIpList`: sharing of address storage is not visible.
* `Hosts`: `GoodIpList_Get` and `fnmatch` are parameters; what a static attempt leaves behind the query is not
  represented.
* `IHeader`: the parent pointer, the time stamp and bytes behind the end of an old domain text are not represented.
* `DnsCache`: alias texts are taken up to their NUL inside the node.
* `Forwarder`: events are atomic; the parent of an address never used is outside the model.
* `TcpStream`, `TcpPool`: the clock is folded into what the calls report; a descriptor handed out twice counts as
  failure.
* `TcpFrontend`: `recv` of 0 bytes waits as on Linux.
* `GoodIpList`: exchanging two addresses is atomic for readers.
* `CacheFile`: the number of records (`CacheCount`) and the padding bytes of blocks are as in `Cache`; reloading takes the
  file as it is; decoding the bytes of the file is not modelled beyond the check of the header.
* `Show`: the log's buffer is empty before; type 0 (whose name is NULL) does not occur, since the iterator stops at it.
* `Downloader`: libcurl, `wordexp` and the script of the user are parameters; reading an open file does not fail.
* `Startup`: `getpwuid`, `ExpandPath` (`wordexp`), the files, starting of groups, binding, the file of the cache, `TryBindLocal`,
  `pow` and `log` are parameters; a program that starts is one for which all of these give something. Which files
  can be written and whether there is a pipe are parameters. Going into the background is left out
  (see `Descriptors`).
* `Descriptors`: the lowest free descriptor is given out, a script has the descriptors of the program, the program closes
  only files and sockets of its own, the pipe has room, reading takes all there is up to the size of a task.
* `Statistic`: the hash value in the header is that of the name.

### Modelled and not modelled, by file

Modelled means: there is a definition citing these lines. "Free", "Cleanup" and plain accessors are left out.

| file | modelled | not modelled |
|------|----------|--------------|
| addresslist.c | all | – |
| array.c | `Init`, `GetBySubscript`, `PushBack`, `SetToSubscript` | downward growth, `Sort`, `Fill` (no callers) |
| bst.c | all | – |
| cacheht.c | all | – |
| cachettlcrtl.c | all | – |
| dnscache.c | all | – |
| dnsgenerator.c | all | – |
| dnsparser.c | names, header fields, iterator, cache data, text form of records | – |
| dnsrelated.c | names of types | – |
| domainstatistic.c | all but the thread that repeats the output | – |
| downloader.c | all (libcurl) | Windows, wget |
| dynamichosts.c | all | scripts (a parameter) |
| filter.c | all | – |
| goodiplist.c | all | – |
| hosts.c, hostscontainer.c, hostsutils.c | all | – |
| iheader.c | all | – |
| ipchunk.c, ipmisc.c | all | – |
| linkedqueue.c | all | – |
| logs.c | files and their rotation | texts of messages |
| main.c | command line, options and defaults, order of initialisation, descriptors of the daemon, `PrepareEnvironment` (`Prepare`) | – |
| mcontext.c | all | – |
| mmgr.c | all but | clean-up after running out of memory |
| pipes.c, ptimer.c, winmsgque.c | – | Windows, time for logs |
| readconfig.c, readline.c | all | – |
| simpleht.c, stringchunk.c, stringlist.c | all | – |
| socketpool.c, socketpuller.c | all (groups of pullers, `SocketPullers_*`, in `TcpPool` and `Memory`) | – |
| stablebuffer.c | all | – |
| tcpfrontend.c | all | – |
| tcpm.c | all | option `AP` |
| timedtask.c | all (POSIX) | Windows |
| udpfrontend.c | all (opening of sockets in `Startup`) | – |
| udpm.c | sending, receiving, sweeping, setting up (`Startup`, `UdpUp`) | – |
| utils.c | address texts, primes, hash, string searches, paths, `ClearTCPSocketBuffer`, `ReplaceStr`, `CopyAFile`, `GetLocalPathFromURL` | `Base64Decode`, dumps |
