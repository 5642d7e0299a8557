{
 "claims": [
  {
   "property": "C01",
   "status": "proved",
   "theorems": [
    "Verif.Name.name_roundtrip",
    "Verif.Name.name_skip",
    "Verif.Name.name_size",
    "Verif.Name.compressed_name_decoded",
    "Verif.Name.long_name_refused"
   ],
   "note": "every name of labels of 1..63 bytes without dot/NUL, every position and surrounding memory; decoding also for every compressed name; a name that does not fit is refused and as many labels as fit are left (long_name_refused)"
  },
  {
   "property": "C02",
   "status": "proved",
   "theorems": [
    "Verif.Name.decode_never_overruns",
    "Verif.Name.failure_unterminated"
   ],
   "note": "every memory content, position, buffer size; on failure the buffer may be left unterminated (witness)"
  },
  {
   "property": "C03",
   "status": "partial",
   "theorems": [
    "Verif.Name.always_terminates_false",
    "Verif.Name.self_pointer_loops",
    "Verif.Name.terminates_partial",
    "Verif.Name.measure_terminates"
   ],
   "note": "false of the code (self pointer); terminates when in-range pointers refer backwards; measuring without a buffer always terminates"
  },
  {
   "property": "C04",
   "status": "partial",
   "theorems": [
    "Verif.Name.reads_inside_false",
    "Verif.Name.reads_inside_partial",
    "Verif.Name.skip_reads_unbounded"
   ],
   "note": "false of the code; reads at most three bytes past the end (attained); DNSJumpOverName has no bound at all"
  },
  {
   "property": "C05",
   "status": "partial",
   "theorems": [
    "Verif.Parser.walk_exact_false",
    "Verif.Parser.walk_exact_partial",
    "Verif.Parser.walk_without",
    "Verif.Parser.purpose_correct"
   ],
   "note": "False of the code for messages without question. Every well-formed message with a question is walked exactly, whatever follows it in memory (walk_exact_partial); for every one without, what the walk reports instead is proved exactly (walk_without)."
  },
  {
   "property": "C06",
   "status": "partial",
   "theorems": [
    "Verif.Parser.walk_inside_false",
    "Verif.Parser.walk_inside_partial"
   ],
   "note": "false of the code (record starting directly behind the message); at most the announced number, starts strictly increasing and at most the length"
  },
  {
   "property": "C07",
   "status": "proved",
   "theorems": [
    "Verif.Generator.append_exact",
    "Verif.Generator.append_read_back"
   ],
   "note": "every message held, every valid record of every kind, every section; read back through the modelled parser and name decoder"
  },
  {
   "property": "C08",
   "status": "partial",
   "theorems": [
    "Verif.Generator.append_in_bounds_false",
    "Verif.Generator.refusal_unchanged_false",
    "Verif.Generator.append_refused_partial",
    "Verif.Generator.appends_in_bounds_partial"
   ],
   "note": "false of the code for raw data (overrun) and because a refused record leaves its first fields behind; all other appends stay inside the buffer and keep message and counts"
  },
  {
   "property": "C09",
   "status": "proved",
   "theorems": [
    "Verif.Generator.compress_meaning",
    "Verif.Generator.compress_root_refused"
   ],
   "note": "any questions, any answers, below 16384 bytes; with a root-owned answer compression reports failure"
  },
  {
   "property": "C10",
   "status": "proved",
   "theorems": [
    "Verif.Msg.tcp_replies_framed",
    "Verif.Msg.udp_reply_plain",
    "Verif.Msg.reply_same_channel"
   ],
   "note": "send() taken to transmit the whole buffer"
  },
  {
   "property": "C11",
   "status": "proved",
   "theorems": [
    "Verif.Cache.never_stale",
    "Verif.Cache.never_stuck"
   ],
   "note": "all histories of stores and sweeps with arbitrary clock readings; equality of the shown TTL when lifetimes are not shared (CacheParallel off), at most the remaining time otherwise"
  },
  {
   "property": "C12",
   "status": "proved",
   "theorems": [
    "Verif.Cache.only_stored"
   ],
   "note": "all histories, all keys, hash and slot collisions included"
  },
  {
   "property": "C13",
   "status": "proved",
   "theorems": [
    "Verif.Cache.stays",
    "Verif.Cache.accepted_served",
    "Verif.Cache.accepted_partial"
   ],
   "note": "with CacheParallel on, for names that get no further record meanwhile"
  },
  {
   "property": "C14",
   "status": "proved",
   "theorems": [
    "Verif.Cache.blocks_apart",
    "Verif.Cache.writes_inside",
    "Verif.Cache.refused_unchanged",
    "Verif.Cache.reads_inside"
   ],
   "note": "all histories, all area sizes"
  },
  {
   "property": "C15",
   "status": "partial",
   "theorems": [
    "Verif.Generator.type_kept_false",
    "Verif.Generator.generate_exact",
    "Verif.Generator.regenerated_partial"
   ],
   "note": "false of the code for PTR and NS; proved for A, AAAA, HTTPS, TXT, CNAME, MX"
  },
  {
   "property": "C16",
   "status": "partial",
   "theorems": [
    "Verif.Cache.distinctKept_false",
    "Verif.Cache.distinct_kept_partial",
    "Verif.Cache.accepted_partial"
   ],
   "note": "false of the code when one data is a prefix of the other"
  },
  {
   "property": "C17",
   "status": "partial",
   "theorems": [
    "Verif.CacheTtl.documented_false",
    "Verif.CacheTtl.ttl_decided_partial",
    "Verif.CacheTtl.active_rule_decides",
    "Verif.CacheTtl.own_plain_never",
    "Verif.CacheTtl.rule_read",
    "Verif.CacheTtl.noWrap_false"
   ],
   "note": "false of the code: a record's own rule is looked up with the text 'owner type class', so wildcard-free own rules never apply; everything else as documented, for every configuration; lifetimes wrap at 2^32"
  },
  {
   "property": "C18",
   "status": "proved",
   "theorems": [
    "Verif.StringChunk.lookup_last_added",
    "Verif.StringChunk.lookup_none_iff",
    "Verif.StringChunk.lookup_terminates",
    "Verif.StringChunk.enum_lists_all",
    "Verif.StringChunk.pattern_first_added",
    "Verif.StringChunk.pattern_random_choice"
   ],
   "note": "every sequence of additions including enlargements, every hash function; memory exhaustion not modelled"
  },
  {
   "property": "C19",
   "status": "proved",
   "theorems": [
    "Verif.StringChunk.domain_match_iff",
    "Verif.StringChunk.domain_match_full_iff"
   ],
   "note": "every rule set and non-empty name; fnmatch is a parameter"
  },
  {
   "property": "C20",
   "status": "proved",
   "theorems": [
    "Verif.StringChunk.domain_match_most_specific"
   ],
   "note": "longest covering domain, last added among equals"
  },
  {
   "property": "C21",
   "status": "partial",
   "theorems": [
    "Verif.StringChunk.case_insensitive_false",
    "Verif.StringChunk.case_insensitive_partial",
    "Verif.StringChunk.uppercase_rule_dead"
   ],
   "note": "false of the code: entries with upper-case letters never match"
  },
  {
   "property": "C22",
   "status": "proved",
   "theorems": [
    "Verif.Filter.filter_refuses_exactly",
    "Verif.Msg.refusal_form",
    "Verif.Msg.refusal_same_channel"
   ],
   "note": "every configuration with numeric types, every non-empty name"
  },
  {
   "property": "C23",
   "status": "partial",
   "theorems": [
    "Verif.Pipeline.precedence_all",
    "Verif.Pipeline.precedence_partial",
    "Verif.Forwarder.query_one_way"
   ],
   "note": "Whole decision in terms of the configuration as written, for every well-formed query with any questions, records and room (precedence_all), and one outcome per query in the whole program. Missing: group files not as specified (C24)."
  },
  {
   "property": "C24",
   "status": "partial",
   "theorems": [
    "Verif.Groups.route_documented_partial",
    "Verif.Groups.rule_group",
    "Verif.Groups.only_fitting_false"
   ],
   "note": "For every accepted configuration, every query and every random number the group chosen is one the documentation allows, and every group it allows can be chosen. False of the code for the default choice, which ignores EnableUDPtoTCP and EnableTCPtoUDP (only_fitting_false). Missing: group files with lines the line reader misreads, or over 2000000 bytes."
  },
  {
   "property": "C25",
   "status": "partial",
   "theorems": [
    "Verif.Hosts.hosts_decide",
    "Verif.Hosts.all_decided",
    "Verif.Hosts.alias_is_name_false",
    "Verif.Hosts.hosts_override_partial",
    "Verif.Hosts.find_used",
    "Verif.Hosts.used_unique",
    "Verif.Hosts.reply_overflow",
    "Verif.Hosts.excluded_never_answered_false"
   ],
   "note": "For any hosts lines read as specified (aliases may be anything of letters, digits, hyphens and dots) and every well-formed query with any questions, records and room for the reply: what becomes of it is exactly as specified, and no case is left out (hosts_decide, all_decided). Partial since the documented claim is false in three places: an excluded name is still refused for AAAA with BlockIpv6WhenIpv4Exists (excluded_never_answered_false), without room the memory behind the buffer is written (reply_overflow), and an alias such as b..c is sent as record data that are no name (alias_is_name_false)."
  },
  {
   "property": "C26",
   "status": "proved",
   "theorems": [
    "Verif.IpText.v4_roundtrip",
    "Verif.IpText.v4_parse",
    "Verif.IpText.v4_print"
   ],
   "note": "all addresses; in addition every dotted-decimal text is read as its value"
  },
  {
   "property": "C27",
   "status": "proved",
   "theorems": [
    "Verif.IpText.v6_roundtrip",
    "Verif.IpText.v6_parse"
   ],
   "note": "all 16-byte addresses"
  },
  {
   "property": "C28",
   "status": "partial",
   "theorems": [
    "Verif.IpChunk.found_listed",
    "Verif.IpChunk.single_found",
    "Verif.IpChunk.lookup_partial",
    "Verif.IpChunk.exact_partial",
    "Verif.IpChunk.exact_false"
   ],
   "note": "Soundness and individually listed addresses for every list; completeness for lists in which no range comes behind a narrower one inside it. exact_false shows that the code misses addresses otherwise."
  },
  {
   "property": "C29",
   "status": "partial",
   "theorems": [
    "Verif.IpMisc.substitution_partial",
    "Verif.IpMisc.replaced_only",
    "Verif.IpMisc.exact_false"
   ],
   "note": "False of the code for address records with the wrong data length (exact_false); proved for messages whose address records have the right data length."
  },
  {
   "property": "C30",
   "status": "proved",
   "theorems": [
    "Verif.MContext.pending_conservation",
    "Verif.MContext.response_delivery"
   ],
   "note": "every history of query/response/sweep on one upstream module's table, operations atomic under the module lock"
  },
  {
   "property": "C31",
   "status": "partial",
   "theorems": [
    "Verif.MContext.response_found_partial",
    "Verif.MContext.response_found_false",
    "Verif.Pipeline.response_sent_partial"
   ],
   "note": "false of the code (witness: three real names with one ID); holds when equal IDs have hashes less than 2^31 apart, also for the way through the whole module (response_sent_partial)"
  },
  {
   "property": "C32",
   "status": "proved",
   "theorems": [
    "Verif.Bst.bst_refines_multiset",
    "Verif.Bst.bst_contents_any_cmp",
    "Verif.Bst.bst_add_fresh_address",
    "Verif.Bst.bst_enum_visits_all"
   ],
   "note": "every history of Add/Delete/Reset, every element type, every total preorder"
  },
  {
   "property": "C33",
   "status": "proved",
   "theorems": [
    "Verif.MContext.sweep_exact"
   ],
   "note": "one clock reading per sweep"
  },
  {
   "property": "C34",
   "status": "partial",
   "theorems": [
    "Verif.Msg.fill_every",
    "Verif.Msg.fill_long",
    "Verif.Msg.fill_without",
    "Verif.Msg.fill_exact",
    "Verif.Msg.nothing_stale_false",
    "Verif.Msg.other_class_stale",
    "Verif.Msg.no_question_stale",
    "Verif.Msg.two_questions_mixed",
    "Verif.Forwarder.replies_owed_false"
   ],
   "note": "False of the code, also end to end (replies_owed_false). Proved: exactly what the header says for every well-formed message, with questions of any number and class (fill_every), with a name of more than 255 characters (fill_long) or without question (fill_without); with questions all of class IN and of at most 255 characters nothing is left of what it said before, with one question it describes exactly this message (fill_exact)."
  },
  {
   "property": "C35",
   "status": "partial",
   "theorems": [
    "Verif.AddressList.fair_partial",
    "Verif.AddressList.always_some",
    "Verif.AddressList.ofFamily_eq",
    "Verif.AddressList.fair_false",
    "Verif.AddressList.empty_undefined"
   ],
   "note": "False of the code when the 32-bit counter wraps round (fair_false) and for empty lists (empty_undefined); proved otherwise."
  },
  {
   "property": "C36",
   "status": "proved",
   "theorems": [
    "Verif.TimedTask.in_time",
    "Verif.TimedTask.least_first",
    "Verif.TimedTask.starts_when_due",
    "Verif.TimedTask.never_lost"
   ],
   "note": "For the POSIX loop, every history of additions, time steps, select results and task completions with delays that are not negative."
  },
  {
   "property": "C37",
   "status": "proved",
   "theorems": [
    "Verif.StableBuffer.stable",
    "Verif.StableBuffer.defined"
   ],
   "note": "For every history; users who stay inside what they were given never leave the storage while sizes stay below the range of int."
  },
  {
   "property": "C38",
   "status": "proved",
   "theorems": [
    "Verif.StringList.split_trim"
   ],
   "note": "For every sequence of additions, trimmings and lower-casings of C strings whose total size keeps int arithmetic in range."
  },
  {
   "property": "C39",
   "status": "partial",
   "theorems": [
    "Verif.Config.reads_partial",
    "Verif.Config.history",
    "Verif.Config.int_last_wins",
    "Verif.Config.bool_last_wins",
    "Verif.Config.str_last_wins",
    "Verif.Config.str_all_kept",
    "Verif.Config.every_file_false",
    "Verif.Config.single_alias_prefix",
    "Verif.Config.nested_alias_prefix",
    "Verif.Config.equals_kept",
    "Verif.Config.alias_cycle",
    "Verif.Config.on_is_off"
   ],
   "note": "False of the code for lines longer than the buffer (every_file_false); prefixes are lost for options with one value and for aliases of aliases; an alias cycle never ends. Proved for any declarations and any number of lines that fit the buffer (or whose comment alone does not)."
  },
  {
   "property": "C40",
   "status": "partial",
   "theorems": [
    "Verif.ReadLine.every_line_partial",
    "Verif.ReadLine.every_line_false",
    "Verif.ReadLine.semicolon_kept",
    "Verif.ReadLine.blank_end_undefined",
    "Verif.ReadLine.comment_end_lost"
   ],
   "note": "False of the code (every_line_false and the witnesses after it); proved for any number of lines that fit the buffer, long lines with a comment whose text fits, and long lines whose last chunk is not blank."
  },
  {
   "property": "C41",
   "status": "partial",
   "theorems": [
    "Verif.Reload.reload_atomic_partial",
    "Verif.Reload.reload_filter_partial",
    "Verif.Reload.fresh_partial",
    "Verif.Reload.lock_free_partial",
    "Verif.Reload.reloadAtomic_false",
    "Verif.Reload.filter_gap",
    "Verif.Reload.always_safe_false",
    "Verif.Reload.failed_reload_unsafe",
    "Verif.Reload.no_socket_unsafe"
   ],
   "note": "For all interleavings of any number of threads, both kinds of lock and all four kinds of reloadable data. False of the code for the disabled domains: while they are reloaded a query finds no list at all and is let through (filter_gap, reloadAtomic_false); what is seen is one complete version also there (reload_filter_partial). False for server groups when a reload fails part-way or a server's thread gets no socket (always_safe_false and the two witnesses); proved for all other schedules."
  },
  {
   "property": "C42",
   "status": "partial",
   "theorems": [
    "Verif.Prime.next_partial",
    "Verif.Prime.isPrime_iff",
    "Verif.Prime.next_false"
   ],
   "note": "False of the code for arguments below 2 (next_false); proved for every int argument of at least 2."
  },
  {
   "property": "C43",
   "status": "partial",
   "theorems": [
    "Verif.TcpStream.read_whole_false",
    "Verif.TcpStream.delivered_whole_false",
    "Verif.TcpStream.read_pieces",
    "Verif.TcpStream.read_whole_partial",
    "Verif.TcpStream.read_sound",
    "Verif.TcpStream.delivered_whole_partial"
   ],
   "note": "False of the code (witnesses for the reading and for the client's view). Proved: what happens for every segmentation behind the length (read_pieces), nothing but a framed message is ever accepted (read_sound), single pieces are delivered whole to the waiting client."
  },
  {
   "property": "C44",
   "status": "proved",
   "theorems": [
    "Verif.Pipeline.no_edns_dropped",
    "Verif.Pipeline.edns_not_dropped",
    "Verif.Pipeline.response_sent_partial"
   ],
   "note": "With the option: well-formed responses without EDNS change nothing but the worker's buffer; those with EDNS are treated as without the option; without it responses reach a waiting client with or without EDNS."
  },
  {
   "property": "C45",
   "status": "partial",
   "theorems": [
    "Verif.MContext.delivered_same_name_false",
    "Verif.MContext.delivered_same_name_partial"
   ],
   "note": "false of the code (witness: yjvxth.com / adezhs.com); holds without hash collisions"
  },
  {
   "property": "C46",
   "status": "partial",
   "theorems": [
    "Verif.StringChunk.root_matches_only_root_false",
    "Verif.StringChunk.root_match_partial"
   ],
   "note": "false of the code (witness: rule ads.com, root query after www.ads.com)"
  },
  {
   "property": "C47",
   "status": "partial",
   "theorems": [
    "Verif.Filter.bad_type_harmless_false",
    "Verif.Filter.bad_type_repeats_partial"
   ],
   "note": "false of the code for a non-numeric first entry"
  },
  {
   "property": "C48",
   "status": "partial",
   "theorems": [
    "Verif.Name.text_distinguishes_false",
    "Verif.Name.text_distinguishes_partial"
   ],
   "note": "false of the code for labels containing dots; proved for labels without dot and NUL"
  },
  {
   "property": "C49",
   "status": "partial",
   "theorems": [
    "Verif.Generator.edns_added_false",
    "Verif.Generator.edns_added_partial"
   ],
   "note": "false of the code for queries with additional records (endless loop); proved for queries without"
  },
  {
   "property": "C50",
   "status": "partial",
   "theorems": [
    "Verif.Generator.init_in_bounds_false",
    "Verif.Generator.init_strips_partial"
   ],
   "note": "false of the code for queries longer than the reply buffer; proved when it fits"
  },
  {
   "property": "C51",
   "status": "proved",
   "theorems": [
    "Verif.IpText.v6_print_canonical"
   ],
   "note": "against an independent statement of RFC 5952"
  },
  {
   "property": "C52",
   "status": "partial",
   "theorems": [
    "Verif.IpText.v4_rejects_false",
    "Verif.IpText.v4_rejects_partial",
    "Verif.IpText.v4_parse",
    "Verif.IpText.v4_family"
   ],
   "note": "false of the code (256.0.0.1 is read as 0.0.0.1)"
  },
  {
   "property": "C53",
   "status": "partial",
   "theorems": [
    "Verif.IpText.v6_accepts_false",
    "Verif.IpText.v6_mixed_false",
    "Verif.IpText.v6_accepts_partial"
   ],
   "note": "false of the code for :: alone and for embedded IPv4"
  },
  {
   "property": "C54",
   "status": "partial",
   "theorems": [
    "Verif.Cache.keptForever_false",
    "Verif.Cache.kept_forever_partial"
   ],
   "note": "false of the code with CacheParallel"
  },
  {
   "property": "C55",
   "status": "partial",
   "theorems": [
    "Verif.IpChunk.ignored_partial",
    "Verif.IpChunk.ignored_false"
   ],
   "note": "False of the code (ignored_false); proved for texts without '.' and ':'."
  },
  {
   "property": "C56",
   "status": "partial",
   "theorems": [
    "Verif.IpMisc.never_passed_partial",
    "Verif.IpMisc.loaded_ready",
    "Verif.IpMisc.negative_blocked",
    "Verif.IpMisc.never_passed_false"
   ],
   "note": "False of the code for messages without a question (never_passed_false); proved for well-formed messages with one and every loadable configuration."
  },
  {
   "property": "C57",
   "status": "partial",
   "theorems": [
    "Verif.IpMisc.load_defined_partial",
    "Verif.IpMisc.load_defined_false"
   ],
   "note": "False of the code (load_defined_false); proved for proper address texts."
  },
  {
   "property": "C58",
   "status": "partial",
   "theorems": [
    "Verif.TimedTask.alive_partial",
    "Verif.TimedTask.alive_false"
   ],
   "note": "False of the code for negative delays (alive_false); proved for delays that are not negative."
  },
  {
   "property": "C59",
   "status": "proved",
   "theorems": [
    "Verif.Arr.list_like"
   ],
   "note": "For arrays that grow up; the other kind has no callers."
  },
  {
   "property": "C60",
   "status": "partial",
   "theorems": [
    "Verif.AddressList.understood",
    "Verif.AddressList.refuses_partial",
    "Verif.AddressList.refuses_false",
    "Verif.AddressList.name_refused"
   ],
   "note": "The first half is proved; the second one is false of the code (refuses_false)."
  },
  {
   "property": "C61",
   "status": "partial",
   "theorems": [
    "Verif.StableBuffer.aligned_partial",
    "Verif.StableBuffer.aligned_false"
   ],
   "note": "False of the code when unaligned requests come first (aligned_false); proved for storage used for aligned requests only."
  },
  {
   "property": "C62",
   "status": "partial",
   "theorems": [
    "Verif.StringList.continues_partial",
    "Verif.StringList.parts_whole",
    "Verif.StringList.continues_false"
   ],
   "note": "False of the code (continues_false); proved for lists not trimmed since, with a non-empty string before the last one."
  },
  {
   "property": "C63",
   "status": "partial",
   "theorems": [
    "Verif.Groups.load_partial",
    "Verif.Groups.load_shape",
    "Verif.Groups.documented_example_fails",
    "Verif.Groups.list_path_lowered",
    "Verif.Groups.no_domains_no_group",
    "Verif.Groups.empty_setting_is_domain"
   ],
   "note": "For every sequence of statements and all group files the line reader reads correctly, up to 2000000 bytes. The other theorems are witnesses of disagreements with the documentation."
  },
  {
   "property": "C64",
   "status": "partial",
   "theorems": [
    "Verif.Hosts.lines_taken",
    "Verif.Hosts.foreign_ignored",
    "Verif.Hosts.find_used",
    "Verif.Hosts.used_unique",
    "Verif.Hosts.long_words_false",
    "Verif.Hosts.long_word_split",
    "Verif.Hosts.empty_list_undefined",
    "Verif.Hosts.nonsense_ignored_false",
    "Verif.Hosts.bare_number_taken",
    "Verif.Hosts.short_address_taken",
    "Verif.Hosts.underscore_alias",
    "Verif.Hosts.case_ignored_false"
   ],
   "note": "Proved for any number of well-formed lines; the other theorems are witnesses of what goes wrong for other lines."
  },
  {
   "property": "C65",
   "status": "partial",
   "theorems": [
    "Verif.DnsCache.cache_reply_partial",
    "Verif.DnsCache.alias_reply_partial",
    "Verif.DnsCache.hit_answered_partial",
    "Verif.DnsCache.response_handed",
    "Verif.DnsCache.any_messages_safe",
    "Verif.DnsCache.only_said_false",
    "Verif.DnsCache.two_aliases_false",
    "Verif.DnsCache.type_asked_false",
    "Verif.DnsCache.defined_always_false"
   ],
   "note": "All histories of well-formed responses and clean-ups, queries of the types A, AAAA, MX, TXT, HTTPS and CNAME with space behind the query. The claim without these restrictions is refuted: records are written past the buffer's end (only_said_false), the second of two aliases gets a wrong owner (two_aliases_false), NS and PTR are answered with aliases (type_asked_false), a mail record with only two bytes of data makes later queries read behind the entry (defined_always_false)."
  },
  {
   "property": "C66",
   "status": "partial",
   "theorems": [
    "Verif.DnsCache.asked_only_false"
   ],
   "note": "False of the code, shown by a concrete history; the negation is what is proved."
  },
  {
   "property": "C67",
   "status": "partial",
   "theorems": [
    "Verif.Forwarder.replies_owed_partial",
    "Verif.Forwarder.not_more_replies_partial",
    "Verif.Forwarder.accepted_wellFormed",
    "Verif.Forwarder.replies_owed_false"
   ],
   "note": "End to end, for all histories in which every client message is one the header parser accepts (all well-formed queries are); responses may be anything. False for other client messages: three junk bytes make another client get a second reply (replies_owed_false)."
  },
  {
   "property": "C68",
   "status": "partial",
   "theorems": [
    "Verif.Forwarder.same_connection_false",
    "Verif.Forwarder.same_socket_partial"
   ],
   "note": "False of the code (socket numbers are reused while queries wait); proved: the socket is one on which a query was received."
  },
  {
   "property": "C69",
   "status": "partial",
   "theorems": [
    "Verif.Forwarder.edns_asked_false",
    "Verif.Pipeline.udp_edns_partial"
   ],
   "note": "False of the code for TCP groups; proved for UDP groups and queries without additional records."
  },
  {
   "property": "C70",
   "status": "partial",
   "theorems": [
    "Verif.Forwarder.server_reply_asked_all_partial",
    "Verif.Forwarder.server_reply_asked_partial",
    "Verif.Forwarder.same_question_false"
   ],
   "note": "False of the code: only identifier and hash of the name are compared, not the type. Proved for whole histories of messages with any number of questions of class IN: a server's message reaches only a client that asked, with its identifier, for the name in its (last) question, up to case and equal hashes. Missing: types, and questions but the last, which are not compared; histories with messages that have questions of other classes; replies through an alias or from own data (C25, C50, C65)."
  },
  {
   "property": "C71",
   "status": "partial",
   "theorems": [
    "Verif.TcpStream.sent_exactly_false",
    "Verif.TcpStream.sent_exactly_partial"
   ],
   "note": "False of the code when send takes only a part; proved when every send takes all or nothing."
  },
  {
   "property": "C72",
   "status": "partial",
   "theorems": [
    "Verif.TcpStream.prepared_false",
    "Verif.TcpStream.prepared_asks",
    "Verif.TcpStream.prepared_agreed",
    "Verif.TcpStream.prepared_partial",
    "Verif.TcpStream.target_text_v4",
    "Verif.TcpStream.target_text_v6"
   ],
   "note": "False of the code when the proxy's address arrives later or is a long name. Proved: whenever the preparation succeeds the right request was sent; a prompt proxy's whole report is consumed and nothing behind it."
  },
  {
   "property": "C73",
   "status": "partial",
   "theorems": [
    "Verif.SocketPool.select_members",
    "Verif.SocketPool.any_socket_false",
    "Verif.SocketPool.unit_safe_false",
    "Verif.SocketPool.unit_safe_partial"
   ],
   "note": "Proved for all histories with descriptors below 1024; false for larger ones and for data shorter than the room (the program does not use that)."
  },
  {
   "property": "C74",
   "status": "proved",
   "theorems": [
    "Verif.TcpFrontend.queries_framed"
   ],
   "note": "All interleavings of accepted connections, segmentations and descriptor reuse."
  },
  {
   "property": "C75",
   "status": "partial",
   "theorems": [
    "Verif.TcpFrontend.passed_on_false",
    "Verif.TcpFrontend.passed_on_first_partial",
    "Verif.TcpFrontend.passed_on_later_partial"
   ],
   "note": "False of the code (witness: message in two pieces); proved when length and message each come in one piece."
  },
  {
   "property": "C76",
   "status": "partial",
   "theorems": [
    "Verif.TcpFrontend.closes_false",
    "Verif.TcpFrontend.leak",
    "Verif.TcpFrontend.exhausted",
    "Verif.TcpFrontend.closes_partial"
   ],
   "note": "False of the code: every client that closes leaves its descriptor open, until undefined behaviour. Proved: descriptors are lost in no other way."
  },
  {
   "property": "C77",
   "status": "partial",
   "theorems": [
    "Verif.TcpFrontend.never_stuck_false",
    "Verif.TcpFrontend.never_stuck_partial"
   ],
   "note": "False of the code (a silent client); proved if clients send whole messages."
  },
  {
   "property": "C78",
   "status": "partial",
   "theorems": [
    "Verif.TcpFrontend.listens_false",
    "Verif.TcpFrontend.listens_partial"
   ],
   "note": "False of the code (a line that fails to listen ends the loop); proved if none fails so."
  },
  {
   "property": "C79",
   "status": "proved",
   "theorems": [
    "Verif.TcpPool.connections_in_order"
   ],
   "note": "All histories; the system's answers (readiness, descriptors, clock, rand, success of sending) are arbitrary."
  },
  {
   "property": "C80",
   "status": "partial",
   "theorems": [
    "Verif.TcpPool.stops_clean_false",
    "Verif.TcpPool.stops_clean_partial"
   ],
   "note": "False of the code (the descriptor for queries is closed twice); proved: no other is closed twice and none is forgotten."
  },
  {
   "property": "C81",
   "status": "proved",
   "theorems": [
    "Verif.TcpPool.sends_have_reason"
   ],
   "note": "For every turn after every history."
  },
  {
   "property": "C82",
   "status": "partial",
   "theorems": [
    "Verif.TcpPool.goes_on_false",
    "Verif.TcpPool.exhausted",
    "Verif.TcpPool.goes_on_partial"
   ],
   "note": "False of the code in two ways; proved for descriptors below 1024 and random numbers that do not overflow."
  },
  {
   "property": "C83",
   "status": "partial",
   "theorems": [
    "Verif.TcpPool.gets_sent_false",
    "Verif.TcpPool.all_get_it_false",
    "Verif.TcpPool.gets_sent_partial"
   ],
   "note": "False of the code with and without parallel mode; proved without proxies when all connections are ready and take data."
  },
  {
   "property": "C84",
   "status": "partial",
   "theorems": [
    "Verif.GoodIpList.hands_out_configured_partial",
    "Verif.GoodIpList.reads_any_false",
    "Verif.GoodIpList.hands_out_garbage"
   ],
   "note": "For lines of the documented form everything is proved, for all histories of checks. For other lines it is false of the code: without an address an uninitialised array is read as a string, and an incomplete address is handed out as four bytes never assigned."
  },
  {
   "property": "C85",
   "status": "partial",
   "theorems": [
    "Verif.GoodIpList.fastest_first_partial",
    "Verif.GoodIpList.fastest_accepts_false"
   ],
   "note": "Proved: the address put first is one whose attempt ended first. False of the code: an attempt that ends with a refusal counts as well, so an address that refuses connections can be handed out as the fastest."
  },
  {
   "property": "C86",
   "status": "partial",
   "theorems": [
    "Verif.GoodIpList.checks_close_partial",
    "Verif.GoodIpList.checks_close_false"
   ],
   "note": "Proved: exactly the sockets that could be made non-blocking are closed, each once. False of the code: a socket that cannot be made non-blocking is left open."
  },
  {
   "property": "C87",
   "status": "partial",
   "theorems": [
    "Verif.Statistic.counts_partial",
    "Verif.Statistic.counts_all_false",
    "Verif.Statistic.star_swallows",
    "Verif.Statistic.counter_overflows"
   ],
   "note": "Proved for all histories of fewer than 2^31 queries for names without * ? [, for the queries made while no page is being written. False of the code otherwise: queries made meanwhile are not counted, after a query for the name * new names vanish from the page, and the counters overflow."
  },
  {
   "property": "C88",
   "status": "partial",
   "theorems": [
    "Verif.Statistic.page_faithful_partial",
    "Verif.Statistic.page_faithful_false"
   ],
   "note": "Proved for names without quotation marks. False of the code: names are written as they are, so a client can write rows of its own."
  },
  {
   "property": "C89",
   "status": "partial",
   "theorems": [
    "Verif.Logs.log_complete_partial",
    "Verif.Logs.log_complete_false",
    "Verif.Logs.unreadable_lost"
   ],
   "note": "Proved for all messages, thresholds and contents of the folder when renaming and opening work and there are enough free numbers. False of the code: when they fail the closed file is printed to, and a file that exists but cannot be read is replaced."
  },
  {
   "property": "C90",
   "status": "proved",
   "theorems": [
    "Verif.CacheFile.restart_sound",
    "Verif.CacheFile.restart_keeps"
   ],
   "note": "For files made by the program itself, with the same CacheSize; stale records can only be served after IgnoreTTL and CacheParallel were both on at some time."
  },
  {
   "property": "C91",
   "status": "partial",
   "theorems": [
    "Verif.CacheFile.killedUsable_false",
    "Verif.CacheFile.killedKeeps_false",
    "Verif.CacheFile.headerSafe_false",
    "Verif.CacheFile.createSafe_false",
    "Verif.CacheFile.killed_usable_partial",
    "Verif.CacheFile.killed_keeps_partial",
    "Verif.CacheFile.killed_atomic_partial",
    "Verif.CacheFile.killed_sweep_partial",
    "Verif.CacheFile.plan_complete",
    "Verif.CacheFile.create_safe_partial"
   ],
   "note": "False of the code inside four windows (publishing a record, recycling a block, growing the index, making the file): lookups that never end, lost records, an overwritten header, a division by zero. Proved for any number of kills at all other points. Stores are taken in source order; power failures are not modelled."
  },
  {
   "property": "C92",
   "status": "partial",
   "theorems": [
    "Verif.CacheFile.taken_iff",
    "Verif.CacheFile.refused_iff",
    "Verif.CacheFile.refusedUnchanged_false",
    "Verif.CacheFile.left_alone_partial",
    "Verif.CacheFile.check_blind",
    "Verif.CacheFile.damaged_loops"
   ],
   "note": "Which files are taken is proved exactly. A refused file is changed (a byte behind the area is zeroed, a short file is made longer). Only eight bytes are checked: a damaged file is taken, and lookups in it need not end."
  },
  {
   "property": "C93",
   "status": "partial",
   "theorems": [
    "Verif.CacheFile.sweepKeeps_false",
    "Verif.CacheFile.sweep_keeps_partial"
   ],
   "note": "The test is made without the lock: between the stores of the lifetime and of the time a new record is taken for an expired one and removed. Proved for tests at all other instants, without CacheParallel."
  },
  {
   "property": "C94",
   "status": "partial",
   "theorems": [
    "Verif.Show.never_overruns_false",
    "Verif.Show.never_overruns_partial",
    "Verif.Show.any_size_partial",
    "Verif.Show.one_byte_partial"
   ],
   "note": "False of the code: with a count of six digits the last line can be one byte too long. Proved for fewer than 100000 announced records, and that it is never more than one byte."
  },
  {
   "property": "C95",
   "status": "partial",
   "theorems": [
    "Verif.Show.shows_records_partial",
    "Verif.Show.shows_records_false",
    "Verif.Show.depends_on_message_false",
    "Verif.Show.labels_differ"
   ],
   "note": "Proved for messages whose records are of class IN (or OPT) and have data as their types prescribe. False of the code otherwise: a record of another class hides itself and the rest, and an address record with too few data shows bytes behind the message."
  },
  {
   "property": "C96",
   "status": "partial",
   "theorems": [
    "Verif.Show.no_forged_lines_false",
    "Verif.Show.no_forged_lines_partial"
   ],
   "note": "False of the code: newlines in texts and names are written as they are. Proved for messages without them."
  },
  {
   "property": "C97",
   "status": "proved",
   "theorems": [
    "Verif.ReplaceStr.replace_exact",
    "Verif.ReplaceStr.replace_unchecked",
    "Verif.ReplaceStr.replaced_unique",
    "Verif.ReplaceStr.count_exact"
   ],
   "note": "For searched texts that are not empty and lengths not larger than the buffer, as at all places it is used; for an empty one the loop does not end."
  },
  {
   "property": "C98",
   "status": "partial",
   "theorems": [
    "Verif.Downloader.replaced_whole_partial",
    "Verif.Downloader.never_half_partial",
    "Verif.Downloader.always_there_false",
    "Verif.Downloader.gone_at_start"
   ],
   "note": "Never a mixture or a part, proved for all failures and kill points (parts: if writing does not fail). False of the code: the old file is removed before the new one is renamed, so that it can be missing."
  },
  {
   "property": "C99",
   "status": "partial",
   "theorems": [
    "Verif.Downloader.fetched_exactly_partial",
    "Verif.Downloader.fetch_unique",
    "Verif.Downloader.never_half_partial",
    "Verif.Downloader.success_complete_false",
    "Verif.Downloader.self_copy_endless"
   ],
   "note": "Proved if files can be opened and written. False of the code otherwise: errors of writing are not looked at."
  },
  {
   "property": "C100",
   "status": "partial",
   "theorems": [
    "Verif.Downloader.limited_ends",
    "Verif.Downloader.reached_ends_partial",
    "Verif.Downloader.update_ends_false",
    "Verif.Downloader.dead_source_blocks"
   ],
   "note": "With a limit: proved. Hosts are fetched without one: false of the code, one source that is never reached keeps the update from ending; proved if all can be reached."
  },
  {
   "property": "C101",
   "status": "partial",
   "theorems": [
    "Verif.Downloader.update_serves_partial",
    "Verif.Downloader.start_serves_partial",
    "Verif.Downloader.start_without",
    "Verif.Downloader.failed_keeps",
    "Verif.Downloader.unreadable_keeps",
    "Verif.Downloader.unreadable_stays_false"
   ],
   "note": "Proved for lines that fit and are of the kind that is read as it should (C40), if writing does not fail and there is no script. False of the code: entries of a source that cannot be read now are dropped when another source gives something."
  },
  {
   "property": "C102",
   "status": "partial",
   "theorems": [
    "Verif.Startup.command_line_partial",
    "Verif.Startup.stops_at",
    "Verif.Startup.every_command_line_false",
    "Verif.Startup.undef_only",
    "Verif.Startup.quiet_is_quiet_false"
   ],
   "note": "False of the code: behind a last -f memory after the arguments is read, and -q does not silence what is printed at the start; the reading is proved for all other command lines."
  },
  {
   "property": "C103",
   "status": "partial",
   "theorems": [
    "Verif.Startup.default_file_partial",
    "Verif.Startup.any_home_false",
    "Verif.Startup.long_home",
    "Verif.Startup.no_user"
   ],
   "note": "False of the code for homes of more than 298 bytes, which overflow a buffer of 320 bytes, and for users without an entry. Proved for all others."
  },
  {
   "property": "C104",
   "status": "partial",
   "theorems": [
    "Verif.Startup.options_partial",
    "Verif.Startup.defaults",
    "Verif.Startup.kept",
    "Verif.Startup.any_directory_false"
   ],
   "note": "Proved for files whose lines are read as they should (C09), whose numbers fit an int, and which are not huge. False of the code for a home directory with a comma, at which the default paths are split."
  },
  {
   "property": "C105",
   "status": "partial",
   "theorems": [
    "Verif.Startup.started_partial",
    "Verif.Startup.configured_partial",
    "Verif.Startup.switches",
    "Verif.Startup.cache_size",
    "Verif.Startup.cache_rules_partial",
    "Verif.Startup.good_ip_partial",
    "Verif.Startup.addresses_partial",
    "Verif.Startup.main_serves",
    "Verif.Startup.started_defaults",
    "Verif.Startup.sample_started"
   ],
   "note": "If the program starts. Restricted to files and values of the kinds the readers understand (FileFits, Readable), each restriction being one of C09, C40, C63."
  },
  {
   "property": "C106",
   "status": "partial",
   "theorems": [
    "Verif.Startup.listens_partial",
    "Verif.Startup.every_address_false"
   ],
   "note": "For lists of addresses of the documented form. False of the code: if listen fails for a TCP address, those behind it are not tried. Missing: other texts."
  },
  {
   "property": "C107",
   "status": "partial",
   "theorems": [
    "Verif.Forwarder.answered_partial",
    "Verif.Forwarder.answered_among_others_partial",
    "Verif.Forwarder.answered_all_partial",
    "Verif.Forwarder.oneOfTwo_false"
   ],
   "note": "Every step in between is arbitrary. Others may use the same identifier there for other names, and are answered in any order. Messages may have any number of questions of class IN if the response keeps the last one, also when others use the identifier; if it answers the first of two questions alone the client gets nothing (oneOfTwo_false). Missing: names whose hashes do not lie on one half of the circle of 32-bit numbers (false of the code: the search then can miss what is stored, C10, C31), questions of other classes, how long the answer takes."
  },
  {
   "property": "C108",
   "status": "partial",
   "theorems": [
    "Verif.HostsLoop.asked",
    "Verif.HostsLoop.combined_seen",
    "Verif.HostsLoop.combined_every",
    "Verif.HostsLoop.combined_any",
    "Verif.HostsLoop.combined_partial",
    "Verif.HostsLoop.seen_no_room",
    "Verif.HostsLoop.every_no_room",
    "Verif.HostsLoop.combined_no_room",
    "Verif.HostsLoop.class_given_up",
    "Verif.HostsLoop.onlyResponse_false",
    "Verif.HostsLoop.allKept_false",
    "Verif.HostsLoop.orderKept_false",
    "Verif.HostsLoop.anyBytes_false",
    "Verif.HostsLoop.givenIfFits_false"
   ],
   "note": "combined_seen says exactly what becomes of a response with answers of any types in any order and addresses with data of any lengths, combined_partial that aliases and addresses keep their names if they come in the order of the chain. False of the code, with witnesses: answers of other types are dropped (allKept_false), answers in another order are given to other names (orderKept_false), an address with too little data is filled up with what lies behind it, which may be left over from another message (onlyResponse_false), and a name with a byte of 192 or more can keep the alias worker busy for ever (anyBytes_false). Without room for the uncompressed reply the query is given up (seen_no_room), even if the compressed reply would fit (givenIfFits_false); so it is if an alias or address is of another class than IN (class_given_up). Missing: aliases and addresses of the root, and names with bytes of 192 or more where the worker does not hang."
  },
  {
   "property": "C109",
   "status": "partial",
   "theorems": [
    "Verif.Forwarder.alias_answered_any",
    "Verif.Forwarder.alias_answered_partial",
    "Verif.Forwarder.ownTarget_false"
   ],
   "note": "The full property fails in the code: an answer that comes after the alias worker gave up on the query is combined with whatever query has its place in the table now (ownTarget_false: a client that asked for b.org gets the alias and the address of a.org, concrete history). Proved (alias_answered_partial): for every history from the start, a query handed to the alias worker is answered to the client that asked, with its identifier and question, the alias and what the server says about the target, provided nothing else uses the two identifiers meanwhile and nobody gives up. For answers that are no chain from the target the reply is exact too, but gives them to other names (alias_answered_any, see C108). Without room, or with an alias or address of another class than IN, nothing is sent (alias_answered_any)."
  },
  {
   "property": "C110",
   "status": "partial",
   "theorems": [
    "Verif.Forwarder.progress",
    "Verif.Forwarder.well_formed_processed_partial",
    "Verif.Forwarder.anything_false",
    "Verif.Forwarder.anyContents_false",
    "Verif.HostsLoop.anyBytes_false"
   ],
   "note": "The full property fails in the code: a query whose name is a pointer to itself keeps the program busy for ever, whatever number of steps it is given (anything_false), and so does well-formed traffic: a well-formed response fills the cache with more texts than the buffer of the next query for the name has room for, and the answer is written past its end (anyContents_false). Proved: from the start of the program on, every history of well-formed traffic whose cached answers fit the buffers is processed to its end (in the model no step yields the outcome for undefined behaviour or running out of steps), with an invariant over the cache, the waiting queries of all modules, the queues and the table of the alias worker. False too for responses with bytes of 192 and more in names, at the alias worker (anyBytes_false). Queries and responses may have any number of questions of class IN and any records. Missing: questions of other classes."
  },
  {
   "property": "C111",
   "status": "partial",
   "theorems": [
    "Verif.Lifecycle.safe_partial",
    "Verif.Lifecycle.works_partial",
    "Verif.Lifecycle.nothing_left_partial",
    "Verif.Lifecycle.replaced_freed_partial",
    "Verif.Lifecycle.replaced_eventually_freed_partial",
    "Verif.Lifecycle.safe_false",
    "Verif.Lifecycle.socket_failure",
    "Verif.Lifecycle.load_failure",
    "Verif.Lifecycle.proxied_replaced"
   ],
   "note": "The full property fails in the code in three ways, each proved with a schedule: a UDP group for which no socket can be made is torn down but stays in use (socket_failure), a reload that fails after one of its groups has been started frees that group under its running threads (load_failure), and the cleanup of a TCP group with proxies frees the list of proxies twice (proxied_replaced). Proved for every schedule, of any length, without these three accidents: no use after free and no double free (safe_partial), a UDP group in use keeps working (works_partial), nothing of a freed group is left (nothing_left_partial), and a replaced set of groups is freed or can be freed by its background threads alone (replaced_freed_partial). In every unending execution in which no thread waits for ever every replaced group is, from some time on, freed (replaced_eventually_freed_partial). Missing: the memory model is sequentially consistent."
  },
  {
   "property": "C112",
   "status": "partial",
   "theorems": [
    "Verif.Threads.replies_owed_partial",
    "Verif.Threads.one_after_the_other",
    "Verif.Threads.replies_owed_false"
   ],
   "note": "Proved for all interleavings of the steps of the two frontends, the alias worker and the workers of all groups, cut at every access to shared data, with reloads, sweeps and losses at any time; every history of the coarser model is one of these (one_after_the_other). Missing: histories with queries the header parser does not accept, where it is false of the code (replies_owed_false). Threads are taken to be sequentially consistent, each locked section to be one step, and each group to have one worker, each frontend one thread."
  },
  {
   "property": "C113",
   "status": "partial",
   "theorems": [
    "Verif.Threads.well_formed_processed_partial",
    "Verif.Threads.anything_false"
   ],
   "note": "C110 for all interleavings of the steps of the threads. Proved for well-formed messages (any number of questions of class IN and any records, names within the limits, no bytes of 192 or more in responses; the cache contents fit; groups of the configuration run when one is chosen); false for arbitrary ones (anything_false). Missing: questions of other classes. The threads are assumed to see each other's writes in one order; whether a thread may still use a group that is freed is C111."
  },
  {
   "property": "C114",
   "status": "partial",
   "theorems": [
    "Verif.Locks.waits_end",
    "Verif.Locks.no_circle",
    "Verif.Locks.idle_holds_nothing",
    "Verif.Locks.replies_outside_partial",
    "Verif.Locks.repliesOutside_false"
   ],
   "note": "Proved but for replies sent under the lock of the hosts data, where the claim is false of the code (repliesOutside_false; replies_outside_partial: it is the only lock). The lock operations of all threads are modelled after the frontends have begun to work; what is done when a group is given up is in C111."
  },
  {
   "property": "C115",
   "status": "partial",
   "theorems": [
    "Verif.Locks.race_free_partial",
    "Verif.Locks.cache_race_partial",
    "Verif.Locks.pointer_race_partial",
    "Verif.Locks.sock_race",
    "Verif.Locks.other_races",
    "Verif.Locks.raceFree_false"
   ],
   "note": "False of the code as a whole (sock_race, other_races); proved for everything that has a lock of its own, and for the cache and the pointers all but the one unlocked look. What each function touches is read off the code by hand."
  },
  {
   "property": "C116",
   "status": "partial",
   "theorems": [
    "Verif.Memory.udp_balanced",
    "Verif.Memory.tcpBalanced_false",
    "Verif.Memory.tcp_made_partial",
    "Verif.Memory.tcp_leaks",
    "Verif.Memory.proxied_stop_undefined",
    "Verif.Memory.no_proxy_undefined",
    "Verif.Memory.refused_undefined",
    "Verif.Memory.hosts_balanced",
    "Verif.Memory.ips_balanced",
    "Verif.Memory.filterBalanced_false",
    "Verif.Memory.filter_balanced_partial",
    "Verif.Memory.mapBalanced_false",
    "Verif.Memory.map_balanced_partial"
   ],
   "note": "Proved in full for UDP groups, hosts and mapped addresses. False of the code for TCP groups: each one without proxies leaves a block behind, each one with proxies is undefined when stopped, and one whose proxies are no addresses is undefined when set up; the theorems say so for all such groups. For disabled domains and the list of groups it is false when memory is refused at certain points, and proved otherwise. Not said: exactly which refused requests make the set-up of a TCP group undefined."
  },
  {
   "property": "C117",
   "status": "partial",
   "theorems": [
    "Verif.Startup.starts_partial",
    "Verif.Startup.starts_defaults",
    "Verif.Startup.scanTypes_words"
   ],
   "note": "The condition is exact for files and values of the documented form, including log, statistics and updates; words among the disabled types that are no numbers do not matter. Missing: values of other forms, lines that are not read as they should be, strange directories."
  },
  {
   "property": "C118",
   "status": "partial",
   "theorems": [
    "Verif.EndToEnd.end_to_end_all_partial",
    "Verif.EndToEnd.in_force_all",
    "Verif.EndToEnd.end_to_end_partial"
   ],
   "note": "Composes the reading of the command line and the file, the set-up of the stages and the handling of queries in every reachable state, for well-formed queries with any number of questions of class IN and any answers, with no case left out (end_to_end_all_partial with Hosts.all_decided), and with configurations exchanged at run time (in_force_all). Missing: files and values that are not read as they should be (as C105), questions of other classes (the header is then that of the message before, C34); the contents of a reply from the cache (see C19 and following)."
  },
  {
   "property": "C119",
   "status": "partial",
   "theorems": [
    "Verif.UdpUp.servers_asked",
    "Verif.UdpUp.socket_renewed",
    "Verif.UdpUp.reachable_partial",
    "Verif.UdpUp.reachable_false",
    "Verif.UdpUp.stuck",
    "Verif.UdpUp.survives_partial",
    "Verif.UdpUp.survives_false",
    "Verif.UdpUp.ended_forever",
    "Verif.UdpUp.name_undefined"
   ],
   "note": "servers_asked and socket_renewed hold for every history. False of the code with servers of both families (reachable_false, stuck: a server is never reached, for histories of any length) and after a failure to make a socket (survives_false, ended_forever); proved otherwise (reachable_partial, survives_partial). Names among the addresses of a line are passed over; every line without an address is refused in parallel mode and otherwise makes the code divide by zero (name_undefined)."
  },
  {
   "property": "C120",
   "status": "partial",
   "theorems": [
    "Verif.UdpUp.only_servers_false",
    "Verif.UdpUp.taken_received"
   ],
   "note": "False of the code (only_servers_false); what is proved instead is that a message is taken exactly as received, whoever sent it."
  },
  {
   "property": "C121",
   "status": "partial",
   "theorems": [
    "Verif.Local.first_free",
    "Verif.Local.channels_apart",
    "Verif.Local.only_own_false"
   ],
   "note": "False of the code for foreign datagrams (only_own_false); the rest is proved for all outcomes of socket and bind."
  },
  {
   "property": "C122",
   "status": "partial",
   "theorems": [
    "Verif.StatPage.template_partial",
    "Verif.StatPage.template_kept_false",
    "Verif.StatPage.template_grows",
    "Verif.StatPage.page_whole_partial",
    "Verif.StatPage.page_whole_any",
    "Verif.StatPage.always_whole_false",
    "Verif.StatPage.clock_false"
   ],
   "note": "page_whole_any holds for all names (rows are those of the table), page_whole_partial says what the rows are for names without wildcards. False of the code, with witnesses: templates with zero bytes are cut, a template that grows while it is read overruns the buffer, the file is half written meanwhile, and a clock that loses a digit leaves a rest."
  },
  {
   "property": "C123",
   "status": "proved",
   "theorems": [
    "Verif.Footprint.nodes_reused",
    "Verif.Footprint.places_reused",
    "Verif.Footprint.places_of_rate",
    "Verif.Footprint.names_kept",
    "Verif.Footprint.namesBounded_false"
   ],
   "note": "for any sequence of calls of the tree, for every history of the whole program, and from the rate of queries and sweeps alone; that nothing but the number of names bounds the statistics is namesBounded_false"
  },
  {
   "property": "C124",
   "status": "partial",
   "theorems": [
    "Verif.ServerNames.namesStay_false",
    "Verif.ServerNames.names_read_partial",
    "Verif.ServerNames.names_stay_partial"
   ],
   "note": "False of the code: groups from a group file keep pointers into the arguments of the file, which are freed when it has been read; after that one empty datagram to the socket of a UDP group (or, with debugging on, any connection of a TCP group) makes the program print freed memory. Proved: exactly when freed memory is read, and that it never is without group files."
  },
  {
   "property": "C125",
   "status": "partial",
   "theorems": [
    "Verif.Forwarder.own_query_partial",
    "Verif.Forwarder.own_query_history_partial",
    "Verif.Forwarder.own_query_false",
    "Verif.Forwarder.chaos_sent"
   ],
   "note": "Proved for well-formed queries with any number of questions of class IN: in any two states with the same groups and cache contents (after any two histories, without cache) the same is sent and the same is handed to the workers. False of the code for questions of other classes: they are taken for questions for the name, and by the client, of the query before (own_query_false)."
  },
  {
   "property": "C126",
   "status": "partial",
   "theorems": [
    "Verif.Startup.updated_partial",
    "Verif.Startup.updates_done_partial",
    "Verif.Startup.as_restarted",
    "Verif.EndToEnd.treated_after_partial",
    "Verif.Startup.unreadable_kept_false",
    "Verif.Startup.lists_reloaded_false",
    "Verif.Startup.none_at_minus_one_false"
   ],
   "note": "Proved for any number of updates and any files: afterwards the stages are configured with the files of the last update where the options say so, with those of the start where not, with the hosts as they were when last opened, and nothing else has changed (updated_partial); updates can be done if the files can be read and the groups set up (updates_done_partial); queries are treated accordingly (treated_after_partial); if everything is to be read again, the outcome is that of a program started at that moment (as_restarted, for any texts). False of the code: a DisabledList file that cannot be opened at an update enables its domains again (unreadable_kept_false); without sources of hosts nothing is ever read again (lists_reloaded_false); with the interval -1 files are read again once (none_at_minus_one_false). Missing: values and files that are not read as they should be (as C105), and updates at which a server group cannot be set up (undefined in the code, C41)."
  },
  {
   "property": "C127",
   "status": "partial",
   "theorems": [
    "Verif.Descriptors.tasks_arrive_partial",
    "Verif.Descriptors.background_pipe",
    "Verif.Descriptors.printed_is_task",
    "Verif.Descriptors.only_asked_false",
    "Verif.Descriptors.none_lost_false"
   ],
   "note": "Proved in the foreground for every history, and in the background for scripts that neither print nor read. False of the code in the background: the standard descriptors are closed and not opened again, so the pipe to the timer gets their numbers (background_pipe, for every table of descriptors), what the script prints is taken for a task with a function address made of it (printed_is_task, only_asked_false), and a script that reads takes tasks away (none_lost_false). Assumes POSIX: the lowest free descriptor is given out and children inherit them; the program closes only what it opened; the pipe has room."
  },
  {
   "property": "C128",
   "status": "partial",
   "theorems": [
    "Verif.Permissions.respected_partial",
    "Verif.Permissions.background_open",
    "Verif.Permissions.respected_false"
   ],
   "note": "Proved in the foreground for every history and mask, and for the file of the cache. False of the code in the background: DaemonInit clears the mask, so that everybody may change the log, the statistics and the downloaded hosts (background_open, whatever the user's mask; respected_false). POSIX permissions; what a script or libcurl makes is not modelled."
  },
  {
   "property": "C129",
   "status": "partial",
   "theorems": [
    "Verif.ExpandPath.named_partial",
    "Verif.ExpandPath.expandPathTo_eq",
    "Verif.ExpandPath.cut_to_fit",
    "Verif.ExpandPath.long_unused",
    "Verif.ExpandPath.undefined_iff",
    "Verif.ExpandPath.documented_false",
    "Verif.ExpandPath.harmless_false",
    "Verif.ExpandPath.empty_undefined"
   ],
   "note": "Proved, whatever wordexp does, for texts without double quotation marks if text and path fit the buffer. False of the code otherwise: quotation marks are removed before the text is read, so that \"/a b\" names /a (documented_false); after an error of wordexp a structure that was never set is given back (harmless_false: the name h(1)), without a word the string at NULL is measured (empty_undefined; undefined_iff says exactly when it is undefined); texts that do not fit are cut (cut_to_fit) and paths that do not fit are replaced by the text (long_unused), without a report."
  },
  {
   "property": "C130",
   "status": "partial",
   "theorems": [
    "Verif.Forwarder.whole_partial",
    "Verif.Forwarder.whole_false"
   ],
   "note": "Responses of up to 3704 bytes reach the client whole, under the hypotheses of `answered_all_partial`; `whole_false` refutes the full claim by a run in which a response of 3800 bytes of data is passed on cut, without the truncation flag"
  },
  {
   "property": "C131",
   "status": "partial",
   "theorems": [
    "Verif.DnsCache.complete_partial",
    "Verif.DnsCache.complete_false"
   ],
   "note": "Proved for the types A, AAAA, MX, TXT and HTTPS when the reply fits the space behind the query; refuted in general by a reply with one of two cached addresses and the start of the other behind it"
  },
  {
   "property": "C132",
   "status": "partial",
   "theorems": [
    "Verif.Forwarder.fits_partial",
    "Verif.Forwarder.fits_false"
   ],
   "note": "Over all histories of well-formed messages without hosts data and cache, every reply is within the size of the messages that came in; the claim with servers over TCP is refuted by a run in which a response of 600 bytes of data is sent on over UDP"
  },
  {
   "property": "C133",
   "status": "partial",
   "theorems": [
    "Verif.Forwarder.local_edns_partial",
    "Verif.Forwarder.asked_as_is",
    "Verif.Forwarder.own_edns_false"
   ],
   "note": "Local replies to queries of one question and of the types A, AAAA, MX, TXT and HTTPS that fit the space; queries to UDP servers without active protection; refuted with it"
  },
  {
   "property": "C134",
   "status": "partial",
   "theorems": [
    "Verif.Forwarder.query_whole_partial",
    "Verif.Forwarder.query_whole_false"
   ],
   "note": "Queries of up to 3704 bytes reach servers that are asked over UDP whole; refuted for larger ones by a run"
  },
  {
   "property": "C135",
   "status": "partial",
   "theorems": [
    "Verif.Forwarder.not_again_partial",
    "Verif.Forwarder.learned_partial",
    "Verif.Forwarder.not_again_false"
   ],
   "note": "Proved for the types A, AAAA, MX, TXT and HTTPS, names the cache holds no alias of, and replies that fit behind the query (CacheParallel and CacheIgnoreTTL off); and that a record in a response passed on to the client is known from then on if the cache has room for all that was handed to it and no record of the same name and type with data beginning alike was handed to it before. False of the code for records of types it does not keep, shown by a run in which the same query is sent twice within the lifetime of the answer."
  },
  {
   "property": "C136",
   "status": "proved",
   "theorems": [
    "Verif.TcpUp.connects_rightly",
    "Verif.TcpUp.proxy_asked",
    "Verif.TcpUp.names_only"
   ],
   "note": "For lines of well-formed addresses, among which names (texts beginning with a letter) may stand, which are passed over (names_only: a line of names only is started and never connects); `inet_addr` is taken to understand dotted decimal texts, `socket` and `connect` are recorded as calls."
  },
  {
   "property": "C137",
   "status": "partial",
   "theorems": [
    "Verif.Prepare.prepared_partial",
    "Verif.Prepare.reads_false",
    "Verif.Prepare.prepares_false"
   ],
   "note": "Proved for home directories of at most 298 bytes. False of the code beyond: the directory is put into 2048 bytes but the file's name into 320 (reads_false), and a user who is not in the table of users makes the program read through NULL (prepares_false)."
  },
  {
   "property": "C138",
   "status": "partial",
   "theorems": [
    "Verif.Startup.folders_partial",
    "Verif.Startup.only_folders_partial",
    "Verif.Startup.folder_unique",
    "Verif.Startup.folders_false"
   ],
   "note": "Proved for all files whose path has at most 1023 bytes (folders_partial for contents as in C104, only_folders_partial for any content). False of the code for longer paths, which are cut (folders_false)."
  }
 ]
}