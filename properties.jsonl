{"id": "C01", "title": "Domain names survive encoding and decoding", "statement": "Whenever dnsforwarder writes a domain name into a DNS message (question, CNAME target, NS/PTR/MX target) and later reads it back from that message, it obtains exactly the same text, and the reader advances by exactly the number of bytes the writer produced.", "quantifier": "every domain name made of labels of 1..63 arbitrary non-NUL, non-dot bytes, placed at every position of every message, followed by any bytes", "why_tests_cant": "There are infinitely many names, positions and surrounding messages; an off-by-one in a label length only shows for particular label shapes.", "anchors": ["dnsgenerator.c:DNSLabelizedName", "dnsparser.c:DNSGetHostName", "dnsparser.c:DNSJumpOverName"]}
{"id": "C02", "title": "Decoding a name never overruns the caller's buffer", "statement": "Decoding a name out of a received message into a caller buffer of N bytes never writes at or beyond offset N, and when it reports success the buffer holds a NUL-terminated string that fits.", "quantifier": "every byte sequence received, every start position, every buffer size, including malicious compression pointers", "why_tests_cant": "The input is attacker controlled; the bound must hold for all 2^(8n) messages.", "anchors": ["dnsparser.c:DNSGetHostName"]}
{"id": "C03", "title": "Decoding a name terminates", "statement": "Decoding a name from any received message finishes. (False of the code: a message whose compression pointer refers to itself makes the decoder loop forever; the part proved is that it terminates whenever every pointer refers strictly backwards.)", "quantifier": "every received message and start position", "why_tests_cant": "Non-termination needs a specific malicious pointer graph; no finite test shows its absence.", "anchors": ["dnsparser.c:DNSGetHostName"]}
{"id": "C04", "title": "Decoding a name reads only the received message", "statement": "Decoding a name reads no byte outside the received message. (False of the code: the bound checks are off by one, a pointer or label may address the byte just past the end; the part proved is the exact bound on how far past the end it can read.)", "quantifier": "every received message and start position inside it", "why_tests_cant": "Reading one byte too far is invisible to functional tests because the receive buffer is larger than the message.", "anchors": ["dnsparser.c:DNSGetHostName"]}
{"id": "C05", "title": "Records are attributed to the right section", "statement": "Walking the records of a message labels the n-th record question, answer, authority or additional exactly as the four counts in the message header say. (False when the question count is 0: then the first answer is not recognised.)", "quantifier": "every combination of the four 16-bit section counts and every record index", "why_tests_cant": "2^64 count combinations; errors hide in zero counts.", "anchors": ["dnsparser.c:DnsSimpleParserIterator_Init", "dnsparser.c:DnsSimpleParserIterator_Next", "dnsparser.h"]}
{"id": "C06", "title": "Pointing at a record never runs away", "statement": "Walking the records of any received message visits at most as many records as the header announces and every visited record starts inside the message; a truncated or lying message ends the walk instead of letting it run on. (Record starts are bounded by the message length; starting exactly at the end is allowed by the code, which is recorded as a violation.)", "quantifier": "every received message whose names can be skipped", "why_tests_cant": "Header counts are attacker controlled and unrelated to the real content.", "anchors": ["dnsparser.c:DnsSimpleParserIterator_Next"]}
{"id": "C07", "title": "Generated records are parsed back unchanged", "statement": "Every address, raw-data, alias, mail-exchange or EDNS record that dnsforwarder appends to a message is read back from that message with the same owner, type, class, TTL and data, and the matching section count is increased by one.", "quantifier": "every message built so far, every record content, every TTL", "why_tests_cant": "Byte layouts must agree for every field value; big-endian mistakes only show for values above 255.", "anchors": ["dnsgenerator.c", "dnsparser.c"]}
{"id": "C08", "title": "Building a reply never overruns the buffer", "statement": "Appending a record to a reply never writes past the end of the reply buffer: if the record does not fit the append is refused and the reply is unchanged. (False for raw-data records and for the initial copy of the question; proved for all other record kinds.)", "quantifier": "every buffer size, every fill level, every record", "why_tests_cant": "Only near-full buffers show the defect.", "anchors": ["dnsgenerator.c:DnsGenerator_RawData", "dnsgenerator.c:DnsGenerator_Init", "dnsgenerator.c:DnsGenerator_A"]}
{"id": "C09", "title": "Reply compression does not change meaning", "statement": "Shortening a reply built from the cache by replacing owner names with pointers leaves the question, every record's type, class, TTL and data unchanged, and every shortened owner name decodes to the name of the question or of the alias target preceding it.", "quantifier": "every reply made of any questions and any list of answers produced by the cache", "why_tests_cant": "Pointer arithmetic depends on all preceding lengths.", "anchors": ["dnsgenerator.c:DNSCompress", "dnscache.c:DNSCache_GetByQuestion"]}
{"id": "C10", "title": "TCP messages are framed by their length", "statement": "A reply sent to a TCP client is the two-byte big-endian length of the DNS message followed by exactly the message, so a client that reads the length and then that many bytes obtains exactly the message, and consecutive replies can be told apart.", "quantifier": "every message up to 65535 bytes, every sequence of messages", "why_tests_cant": "All lengths and concatenations.", "anchors": ["iheader.c:MsgContext_SendBack", "tcpfrontend.c"]}
{"id": "C11", "title": "Cached records are never served after they expire", "statement": "With TTLs honoured, a record stored at time t with effective TTL d is never part of a cache answer at time t+d or later, whatever stores, lookups and expiry sweeps happened in between, and the TTL shown to the client is exactly the remaining time.", "quantifier": "every history of stores, lookups, sweeps and clock readings", "why_tests_cant": "Needs all histories, including slot reuse after expiry.", "anchors": ["dnscache.c:DNSCache_FindFromCache", "dnscache.c:DNSCache_GetRawRecordsFromCache", "dnscache.c:DNSCacheTTLCountdown_Task"]}
{"id": "C12", "title": "The cache returns only what was stored under the same question", "statement": "Every record returned for (name, type, class) was stored earlier under exactly that name, type and class with exactly those data; nothing leaks from other names even when hashes or slots collide.", "quantifier": "every history of stores and sweeps, every queried name, including hash collisions", "why_tests_cant": "Collisions in a 32-bit hash and slot sharing are not reachable by sampling.", "anchors": ["dnscache.c:DNSCache_AddAItemToCache", "dnscache.c:DNSCache_FindFromCache", "cacheht.c"]}
{"id": "C13", "title": "A stored record can be found until it expires", "statement": "After a record is accepted by the cache, a lookup for its name, type and class returns it at every later time before its expiry, whatever else is stored or swept meanwhile.", "quantifier": "every history, every interleaving of sweeps and reuse of freed slots", "why_tests_cant": "Lost entries after chains are relinked only occur in rare orders.", "anchors": ["cacheht.c:CacheHT_InsertToSlot", "cacheht.c:CacheHT_RemoveFromSlot", "dnscache.c"]}
{"id": "C14", "title": "Cache memory blocks never overlap", "statement": "Within the fixed-size cache area, the bytes of two live records never overlap, never overlap the record index growing from the other end, and never leave the area; when there is no room the store is refused and nothing changes.", "quantifier": "every history of stores and expiries, every cache size, every record size", "why_tests_cant": "Overlap needs a nearly full cache and a specific free/reuse order.", "anchors": ["cacheht.c:CacheHT_FindUnusedNode", "cacheht.c:CacheHT_CreateNewNode", "dnscache.c:DNSCache_GetAvailableChunk", "dnscache.c:DNSCacheTTLCountdown_Task", "array.c:Array_PushBack"]}
{"id": "C15", "title": "Cached records come back with their own type", "statement": "A record answered from the cache has the same record type it was stored with. (False of the code for PTR and NS records, which are regenerated as CNAME records; proved for the other cached types.)", "quantifier": "every cacheable record type and content", "why_tests_cant": "Needs a semantic comparison for all types.", "anchors": ["dnsgenerator.c:DnsGenerator_Generate", "dnscache.c:DNSCache_GetRawRecordsFromCache"]}
{"id": "C16", "title": "Distinct records of one name are all cached", "statement": "Storing two different records for the same name and type keeps both. (False of the code: a record whose data bytes are a prefix of an already cached record's data is taken for a duplicate and dropped; proved when no data is a prefix of the other, in particular for A and AAAA.)", "quantifier": "every pair of record data", "why_tests_cant": "Prefix relations are rare in samples.", "anchors": ["dnscache.c:DNSCache_AddAItemToCache", "dnscache.c:DNSCache_FindFromCache"]}
{"id": "C17", "title": "TTL rules decide how long a record is cached", "statement": "The effective TTL of a stored record is determined by the configured rule as documented: no-cache means never stored, original means unchanged, otherwise coefficient times TTL plus increment, with the infection mode deciding between the queried name's rule and the record's own rule. (Own-name rules without wildcard never apply in the code; recorded as a violation.)", "quantifier": "every rule, every TTL, every infection mode", "why_tests_cant": "Decision table over unbounded values.", "anchors": ["cachettlcrtl.c", "dnscache.c:DNSCache_AddAItemToCache"]}
{"id": "C18", "title": "Lookups by key return the most recently added entry", "statement": "The string table behind the filter lists, hosts, options and routing returns for each key the value added last under exactly that key, finds every key ever added, and finds nothing else, no matter how many entries were added and how often the table was enlarged.", "quantifier": "every sequence of additions, every hash function", "why_tests_cant": "Rehashing order matters only after particular growth points and collisions.", "anchors": ["simpleht.c", "stringchunk.c:StringChunk_Add", "stringchunk.c:StringChunk_Match_NoWildCard"]}
{"id": "C19", "title": "Domain rules match the domain itself and its subdomains only", "statement": "A rule for a plain domain matches a queried name exactly when the name equals the rule's domain or ends with a dot followed by it; a rule never matches a name that merely ends with the same characters.", "quantifier": "every rule set and every non-empty queried name", "why_tests_cant": "Suffix/label-boundary errors are input dependent.", "anchors": ["stringchunk.c:StringChunk_Domain_Match_NoWildCard", "stringchunk.c:StringChunk_Domain_Match"]}
{"id": "C20", "title": "The most specific domain rule wins", "statement": "When several plain-domain rules match a queried name, the value used is the one of the longest matching domain.", "quantifier": "every rule set and queried name", "why_tests_cant": "Depends on every combination of nested rules.", "anchors": ["stringchunk.c:StringChunk_Domain_Match_NoWildCard"]}
{"id": "C21", "title": "Domain matching ignores letter case", "statement": "A configured disabled domain or hosts entry matches a query whatever the letter case of either. (False of the code: queries are lower-cased but disabled domains and hosts names are stored verbatim, so an entry containing an upper-case letter can never match; proved for entries without upper-case letters.)", "quantifier": "every configured entry and every queried name", "why_tests_cant": "Must hold for all spellings.", "anchors": ["filter.c", "hostscontainer.c", "iheader.c:IHeader_Fill", "utils.c:StrToLower"]}
{"id": "C22", "title": "Filtering refuses exactly the disabled queries", "statement": "A query is refused by the filter exactly when its type is listed as disabled or its name matches a disabled domain; a refused query is answered, with the same ID and question, as a response with recursion available and no answers.", "quantifier": "every set of disabled types and domains, every query", "why_tests_cant": "Set membership over all histories of the tree used to store types.", "anchors": ["filter.c:Filter_Out", "filter.c:IsDisabledType", "iheader.c:MsgContext_SendBackRefusedMessage"]}
{"id": "C23", "title": "Precedence of local answers", "statement": "A query is handled in the fixed order filter, hosts, cache, upstream: an upstream server is contacted only if the filter did not refuse it, the hosts data had no answer and the cache had no answer; each query gets at most one of these outcomes.", "quantifier": "every query and every outcome of the individual stages", "why_tests_cant": "All combinations of stage outcomes.", "anchors": ["mmgr.c:MMgr_Send"]}
{"id": "C24", "title": "Queries are routed to the server group configured for their domain", "statement": "A query for a domain assigned to server groups goes to one of the groups assigned to it that accepts the client's transport; otherwise a default group is used. (The default choice ignores the transport restriction; recorded as a violation.)", "quantifier": "every configuration of groups and every query", "why_tests_cant": "All domain/transport combinations.", "anchors": ["mmgr.c:MMgr_Send", "mmgr.c:ModuleFitRequest"]}
{"id": "C25", "title": "Hosts entries override as documented", "statement": "For a name in the hosts data: a CNAME entry redirects every non-CNAME query, an address entry answers queries of its type, an IPv4-only entry answers AAAA queries with the mapped address, excluded names are never answered, static entries take precedence over dynamic ones, and with BlockIpv6WhenIpv4Exists an AAAA query is refused when an IPv4 entry exists.", "quantifier": "every hosts file content and every query", "why_tests_cant": "Decision table over unbounded data.", "anchors": ["hosts.c:Hosts_Try", "hostsutils.c:HostsUtils_Try", "hostscontainer.c:HostsContainer_Find"]}
{"id": "C26", "title": "IPv4 text conversion is exact", "statement": "Printing an IPv4 address and parsing the text gives the same address.", "quantifier": "all 2^32 addresses", "why_tests_cant": "Tests sample.", "anchors": ["utils.c:IPv4AddressToNum", "utils.c:IPv4AddressToAsc"]}
{"id": "C27", "title": "IPv6 text conversion is exact", "statement": "Printing an IPv6 address and parsing the text gives the same address, including every form of zero compression.", "quantifier": "all 2^128 addresses", "why_tests_cant": "Domain too large; zero-run positions interact.", "anchors": ["utils.c:IPv6AddressToNum", "utils.c:IPv6AddressToAsc"]}
{"id": "C28", "title": "Address block lists are exact", "statement": "A response address is treated as blocked or substituted exactly when it is listed individually or inside a listed CIDR range. (False of the code when listed ranges overlap: an inner range listed before an outer one hides part of the outer; proved for individually listed addresses and for pairwise disjoint ranges.)", "quantifier": "every list, every insertion order, every address", "why_tests_cant": "Search-tree shapes depend on insertion order.", "anchors": ["ipchunk.c:IpChunk_Add", "ipchunk.c:IpChunk_Find", "bst.c"]}
{"id": "C29", "title": "Address substitution changes only the matched address", "statement": "Substituting addresses in a response changes only the address bytes of the matching answer records; every other byte and the length are preserved. (False of the code for a record announcing a data length shorter than its type requires; proved for well-formed records.)", "quantifier": "every response and every substitution list", "why_tests_cant": "All malformed lengths.", "anchors": ["ipmisc.c:IpMisc_Process"]}
{"id": "C30", "title": "A response goes to the client that asked", "statement": "A response from an upstream server is delivered only to a client whose pending query has the same ID and same name hash, each pending query is answered at most once, and after delivery it is no longer pending.", "quantifier": "every history of queries, responses, timeouts", "why_tests_cant": "All interleavings of queries with equal IDs.", "anchors": ["mcontext.c", "udpm.c:UdpM_Works", "bst.c"]}
{"id": "C31", "title": "A pending query is found when its response arrives", "statement": "As long as a query is pending and not timed out, a matching response finds it. (False of the code: the ordering used by the lookup tree is not transitive for hash differences of 2^31 or more, so removing one entry can hide another; proved for every ordering that is a total preorder.)", "quantifier": "every history of insertions and removals", "why_tests_cant": "Needs particular 32-bit hash differences and deletion order.", "anchors": ["mcontext.c:ModuleContextCompare", "bst.c:Bst_Delete", "bst.c:Bst_Search"]}
{"id": "C32", "title": "The search tree implements a set with multiplicity", "statement": "For any total preorder, after any sequence of insertions and deletions the tree contains exactly the inserted and not deleted elements, and a search finds an element equal to the key exactly when there is one.", "quantifier": "every operation sequence, every element type and total preorder", "why_tests_cant": "Unbounded shapes.", "anchors": ["bst.c"]}
{"id": "C33", "title": "Pending queries time out", "statement": "The sweep removes exactly the pending queries older than the timeout and keeps all younger ones.", "quantifier": "every set of pending queries and clock value", "why_tests_cant": "All set shapes: deletion during traversal.", "anchors": ["mcontext.c:ModuleContext_Sweep"]}
{"id": "C34", "title": "A malformed packet does not disturb other clients", "statement": "A datagram that is not a well-formed query is dropped without sending anything to a client other than its sender. (False of the code: the return value of the header parser is ignored, so a malformed packet is processed with the previous client's address and question; proved: well-formed packets never use stale data.)", "quantifier": "every sequence of received packets", "why_tests_cant": "Depends on the previous packet.", "anchors": ["iheader.c:IHeader_Fill", "udpfrontend.c", "udpm.c"]}
{"id": "C35", "title": "Round-robin over upstream servers is fair", "statement": "Advancing over a non-empty server list visits every server once before repeating. (With an empty list the code divides by zero; recorded as precondition violation.)", "quantifier": "every list length, every number of failures", "why_tests_cant": "Counter wrap-around.", "anchors": ["addresslist.c:AddressList_GetOne", "addresslist.c:AddressList_Advance"]}
{"id": "C36", "title": "Timed tasks run in due order", "statement": "The task queue always delivers the task with the least remaining time, tasks never run before their delay elapsed, and a persistent task is re-armed with its full period.", "quantifier": "every sequence of additions and elapsed times", "why_tests_cant": "All interleavings of additions and time steps.", "anchors": ["linkedqueue.c", "timedtask.c"]}
{"id": "C37", "title": "Stable storage never moves or overwrites", "statement": "An address returned by the stable buffer stays valid and its bytes stay unchanged by later additions; two additions never share bytes.", "quantifier": "every sequence of additions of every size", "why_tests_cant": "Block growth boundaries.", "anchors": ["stablebuffer.c"]}
{"id": "C38", "title": "Splitting lists", "statement": "Splitting a configuration string at delimiters and trimming yields exactly the maximal delimiter-free non-blank pieces in order.", "quantifier": "every string and delimiter set", "why_tests_cant": "All strings.", "anchors": ["stringlist.c"]}
{"id": "C39", "title": "Configuration lines are interpreted as documented", "statement": "Reading a configuration file ignores comments, blank lines and unknown options; for single-value options the last line wins; for appending options all values are kept in order; an alias behaves like its target with its prefix.", "quantifier": "every file content and option table", "why_tests_cant": "All line sequences.", "anchors": ["readconfig.c:ConfigRead", "readline.c:ReadLine"]}
{"id": "C40", "title": "Every line of a file is seen exactly once", "statement": "Reading a text file line by line yields every non-blank, non-comment line in order, trimmed. (False after a too long line: discarding the rest can swallow the following line; proved for files without over-long lines.)", "quantifier": "every file content", "why_tests_cant": "All contents around the buffer boundary.", "anchors": ["readline.c:ReadLine", "readline.c:ReadLine_GoToNextLine"]}
{"id": "C41", "title": "Reloading is atomic for lookups", "statement": "While hosts, filter, address or routing data are reloaded in the background, every lookup sees either the complete old or the complete new data, and never freed memory.", "quantifier": "every interleaving of lookups and reloads", "why_tests_cant": "Schedules cannot be enumerated by tests.", "anchors": ["dynamichosts.c:DynamicHosts_Load", "rwlock.h", "filter.c", "mmgr.c", "ipmisc.c"]}
{"id": "C42", "title": "Primes and table sizes", "statement": "The next-prime function returns the least prime greater than or equal to its argument. (False for the argument 1 or less; proved for arguments of at least 2.)", "quantifier": "every natural number in range", "why_tests_cant": "Unbounded.", "anchors": ["utils.c:IsPrime", "utils.c:FindNextPrime"]}
{"id": "C43", "title": "A TCP upstream response is delivered whole", "statement": "A response from a TCP upstream is delivered with its full length however the network splits it. (False of the code when it arrives in more than one piece: the length of the last piece is used; proved for single-piece arrival.)", "quantifier": "every response and segmentation", "why_tests_cant": "Segmentation is chosen by the network.", "anchors": ["tcpm.c:TcpM_Works"]}
{"id": "C44", "title": "Blocked-message detection (active protection)", "statement": "With active protection on, upstream responses lacking EDNS are dropped and the query stays pending; with it off, nothing is dropped for this reason.", "quantifier": "every response and setting", "why_tests_cant": "All flag combinations with history.", "anchors": ["udpm.c:UdpM_Works", "iheader.h"]}
{"id": "C45", "title": "Responses are matched by name", "statement": "A response is delivered only to a client that asked for the same name. (False of the code: only the 16-bit ID and a 32-bit hash of the name are compared, so a response for another name with the same hash is delivered; proved when no two names involved collide.)", "quantifier": "every history of queries and every response", "why_tests_cant": "Needs a 32-bit hash collision.", "anchors": ["mcontext.c:ModuleContextCompare", "utils.c:BKDRHash"]}
{"id": "C46", "title": "The root name matches only root rules", "statement": "A query for the root name (empty text) is not matched by a rule for another domain. (False of the code: the suffix search of an empty name starts behind its terminator and reads the rest of the previously stored name; proved when the memory behind the terminator is an empty string.)", "quantifier": "every rule set and every content of the name buffer", "why_tests_cant": "depends on what an earlier query left in the buffer", "anchors": ["stringchunk.c:StringChunk_Domain_Match_NoWildCard", "iheader.c:IHeader_Fill"]}
{"id": "C47", "title": "A malformed disabled type disables nothing", "statement": "A DisabledType value that is not a number has no effect. (False of the code: the variable keeps its previous or uninitialised content and that type is disabled; proved behind a numeric value, where it only repeats it.)", "quantifier": "every list of configured values and every uninitialised content", "why_tests_cant": "depends on uninitialised memory", "anchors": ["filter.c:FilterType_Init"]}
{"id": "C48", "title": "Different names have different texts", "statement": "Two domain names that differ as label sequences are never turned into the same text, so rules, hosts and cache entries of one never apply to the other. (False of the code: a label may contain a dot byte on the wire, so the one-label name a.b and the two-label name a, b get the same text; proved for labels without dot and NUL.)", "quantifier": "every pair of names on the wire", "why_tests_cant": "needs labels no ordinary client sends", "anchors": ["dnsparser.c:DNSGetHostName"]}
{"id": "C49", "title": "Adding EDNS to a query changes nothing else", "statement": "With active protection on, a forwarded query is the client's query with exactly one EDNS record added, and adding it always ends. (False of the code: for a query that already has an additional record but no EDNS the search for the section never ends; proved for queries without additional records.)", "quantifier": "every query", "why_tests_cant": "needs a query no ordinary client sends; the failure is a hang", "anchors": ["iheader.c:MsgContext_AddFakeEdns", "dnsgenerator.c:DnsGenerator_NextPurpose"]}
{"id": "C50", "title": "A local reply repeats the query", "statement": "A reply built locally starts as the client's query with its authority and additional records removed and nothing else changed. (If it fits the buffer; the copy itself is not checked against the buffer size, recorded as a violation.)", "quantifier": "every query, every buffer size, whatever lies behind the query in memory", "why_tests_cant": "all message shapes and lengths", "anchors": ["dnsgenerator.c:DnsGenerator_Init", "dnsgenerator.c:StripedLength"]}
{"id": "C51", "title": "IPv6 addresses are shown in canonical form", "statement": "The text printed for an IPv6 address is its RFC 5952 form: lower-case groups without leading zeros, and `::` exactly in place of the first longest run of at least two zero groups.", "quantifier": "all 2^128 addresses", "why_tests_cant": "too many addresses", "anchors": ["utils.c:IPv6AddressToAsc"]}
{"id": "C52", "title": "Malformed IPv4 texts are rejected", "statement": "A text that is not a dotted-decimal IPv4 address is not accepted as one. (False of the code: numbers above 255 are accepted and cut to eight bits; proved: every well-formed text is accepted with its value, and printed addresses are recognised as IPv4.)", "quantifier": "every text", "why_tests_cant": "unbounded texts", "anchors": ["utils.c:IPv4AddressToNum", "utils.c:GetAddressFamily"]}
{"id": "C53", "title": "Every IPv6 text form is understood", "statement": "Every RFC 4291 text of an IPv6 address is accepted and read as the address it denotes. (False of the code: `::` alone reports failure, and with an embedded IPv4 address the last two groups are wrong; proved for all other texts of forms 1 and 2, in either case, with or without leading zeros.)", "quantifier": "every RFC 4291 text", "why_tests_cant": "unbounded combinations of group texts and zero runs", "anchors": ["utils.c:IPv6AddressToNum"]}
{"id": "C54", "title": "Ignoring TTLs keeps records forever", "statement": "With the option to ignore TTLs a record that is served from the cache stays available, whatever is stored later. (False of the code together with the option to share lifetimes between the records of a name: a record stored exactly when the first one's lifetime is over sets both lifetimes to 0 and both vanish; proved without that option.)", "quantifier": "every configuration, every history of stores", "why_tests_cant": "Needs a store at one particular second.", "anchors": ["dnscache.c:DNSCache_CacheMinTTL", "dnscache.c:DNSCache_GetRawRecordsFromCache"]}
{"id": "C55", "title": "Malformed block-list entries are ignored", "statement": "An entry of an address list whose text is not an address or an address with a prefix length has no effect on which addresses are blocked or substituted. (False of the code: `1.1.1.1/x` is taken for `0.0.0.0/0` and matches every IPv4 address; proved for texts without dot and colon.)", "quantifier": "every entry text, every list", "why_tests_cant": "All malformed texts.", "anchors": ["ipchunk.c:IpSet_Parse", "ipchunk.c:IpChunk_Add"]}
{"id": "C56", "title": "Blocked addresses never reach clients", "statement": "A response from upstream that contains an answer record with a blocked address is not passed to the client. (False of the code for responses without a question section, whose answers are not found; proved for well-formed responses with a question.)", "quantifier": "every response, every list of blocked addresses", "why_tests_cant": "All message layouts and list shapes.", "anchors": ["ipmisc.c:IPMisc_Process", "dnsparser.c:DNSSimpleParser", "udpm.c:UdpM_Works"]}
{"id": "C57", "title": "Loading address lists has a defined result", "statement": "Loading a configuration of blocked and substituted addresses has a defined result, whatever the texts are: no uninitialised memory is stored in the lists. (False of the code: a replacement that is not an address stores uninitialised bytes; proved for proper texts.)", "quantifier": "every configuration", "why_tests_cant": "Uninitialised memory shows up differently in every run.", "anchors": ["ipmisc.c:IPMisc_AddSubstituteFromString", "utils.c:IPv4AddressToNum", "utils.c:IPv6AddressToNum"]}
{"id": "C58", "title": "Timed tasks keep running whatever interval is configured", "statement": "No configured interval stops the periodic maintenance for good. (False of the code: an interval whose number of milliseconds does not fit an int becomes a negative delay, which select refuses; the timer thread then sleeps for ever and no task runs again; proved for delays that are not negative.)", "quantifier": "every sequence of additions, delays and time steps", "why_tests_cant": "The failing values lie outside the tested range and only show later.", "anchors": ["timedtask.c:TimeTask_Work", "timedtask.c:TimedTask_Add", "dynamichosts.c:DynamicHosts_Init"]}
{"id": "C59", "title": "Growing arrays behave like lists", "statement": "Whatever sequence of pushes, assignments and reads is made, a growing array answers like a list: pushed elements get the next subscript, stay where they are until assigned, and nothing outside the array is touched.", "quantifier": "every sequence of operations of every length, with every failing allocation", "why_tests_cant": "Growth boundaries and long histories.", "anchors": ["array.c:Array_PushBack", "array.c:Array_SetToSubscript", "array.c:Array_GetBySubscript"]}
{"id": "C60", "title": "Server addresses are understood as written", "statement": "Every server address in a documented form (dotted IPv4, bracketed IPv6, optional port) is read as exactly that address and port, and every other text is refused. (The second half is false of the code: an address followed by a bare colon uses a port that was never assigned; proved for every text that is read without undefined behaviour, see theorem.)", "quantifier": "every text, every default port", "why_tests_cant": "All texts.", "anchors": ["addresslist.c:AddressList_ConvertFromString"]}
{"id": "C61", "title": "Aligned storage is aligned", "statement": "A place that is asked for as an aligned one starts at a multiple of the pointer size. (False of the code: only the size is rounded up, so an odd size that was asked for unaligned before shifts later places; proved for storage in which every place is asked for as an aligned one, as callers do that need it.)", "quantifier": "every sequence of requests", "why_tests_cant": "Depends on the order and sizes of earlier requests.", "anchors": ["stablebuffer.c:Add"]}
{"id": "C62", "title": "Continuing the last string of a list", "statement": "A value that arrives in several parts, each one appended to the last string of the list, gives the same strings as the whole value. (False of the code: if the last block holds exactly an empty string and another one, the other one is lost and uninitialised memory enters the list; proved for lists that were not trimmed since and in which the string before the last one is not empty.)", "quantifier": "every sequence of additions and continuations, every delimiter set", "why_tests_cant": "All strings and block layouts.", "anchors": ["stringlist.c:StringList_AppendLast", "readconfig.c:ParseString"]}
{"id": "C63", "title": "Server groups are read as documented", "statement": "A configuration of UDPGroup, TCPGroup and GroupFile statements is accepted exactly when each statement is complete, each group file names protocol and server, and every group can be started; the groups then have the servers, the parallel switch, the proxies and the domains given (last value of a key wins, defaults parallel on and no proxy). (The path after LIST is put in small letters, and the documented example with three values for TCPGroup is refused; recorded as violations.)", "quantifier": "every sequence of statements and every content of the group files", "why_tests_cant": "Unbounded sequences of statements and files.", "anchors": ["mmgr.c:Modules_Init", "mmgr.c:Modules_InitFromFile", "mmgr.c:Udp_Init", "mmgr.c:Tcp_Init"]}
{"id": "C64", "title": "Hosts lines are read as written", "statement": "Every line `word name` of the hosts data adds exactly the entry written: an IPv4 or IPv6 address with its bytes, an alias, an exclusion (@@) or the name of a list (<...>), for exactly that name or pattern; blank and one-word lines add nothing; among the entries of a name the one used is determined by the order of the lines. (False of the code for words over 128 bytes, for malformed addresses, for names with capitals, for aliases with an underscore and for an empty list name.)", "quantifier": "every sequence of lines", "why_tests_cant": "Unbounded input text.", "anchors": ["hostscontainer.c:HostsContainer_Load", "hostscontainer.c:HostsContainer_Add", "hostscontainer.c:HostsContainer_Find"]}
{"id": "C65", "title": "Answers from the cache repeat what servers said", "statement": "A reply taken from the cache is a well-formed reply to the query whose answers lead from the name asked for over aliases to records of the type asked for, each of them contained in an earlier response under the same name and, where TTLs are honoured, not older than the time to live it was given; every record of a cached type in a taken response is handed to the cache; if the cache holds records of the type asked for and no alias, they are answered, all of them and in order. (False of the code for PTR and NS, which are answered as CNAME, and for answers larger than the space behind the query, which are written past its end.)", "quantifier": "every configuration, every history of responses and clean-ups, every query", "why_tests_cant": "The histories and messages are unbounded.", "anchors": ["dnscache.c:DNSCache_AddItemsToCache", "dnscache.c:DNSCache_FetchFromCache", "dnscache.c:DNSCache_GetByQuestion", "dnscache.c:DNSCache_GetRawRecordsFromCache"]}
{"id": "C66", "title": "A server speaks only for the names it was asked about", "statement": "An answer from the cache about a name stems from a response to a question for this name or from an alias leading to it. (False of the code: every record in any section of a response is cached under the name it claims to be for, so one server can set the address of any other name.)", "quantifier": "every history of responses, every query", "why_tests_cant": "Every composition of responses.", "anchors": ["dnscache.c:DNSCache_AddItemsToCache"]}
{"id": "C67", "title": "Replies go only to those who asked", "statement": "Every message sent to a client can be given a query of its own: received before from the same client (address and local port, or TCP connection's socket), bearing the same identifier, and framed as its transport requires. So no client ever gets more replies than it sent queries, and nobody who did not ask gets anything.", "quantifier": "every history of queries, responses of any content, losses, timeouts, reloads, aliases and configurations", "why_tests_cant": "Spans all components and all interleavings of clients and servers.", "anchors": ["udpfrontend.c:UdpFrontend_Work", "tcpfrontend.c:TcpFrontend_Work", "mmgr.c:MMgr_Send", "udpm.c:UdpM_Works", "tcpm.c:TcpM_Works", "hosts.c:Hosts_SocketLoop"]}
{"id": "C68", "title": "Replies stay on their TCP connection", "statement": "A reply to a query received over TCP is written to the connection the query came from, and never to another connection.", "quantifier": "every history of connections, queries and responses", "why_tests_cant": "Needs a late response after the connection was closed and its number given to another client.", "anchors": ["tcpfrontend.c:TcpFrontend_Work", "iheader.c:MsgContext_SendBack"]}
{"id": "C69", "title": "Active protection asks for EDNS", "statement": "With active protection on, every query that leaves for a server carries an EDNS record, so that the responses of servers that follow the standard are not dropped.", "quantifier": "every query, group and setting", "why_tests_cant": "Depends on the kind of group and on what the query already contains.", "anchors": ["udpm.c:UdpM_Send", "tcpm.c:TcpM_Send", "iheader.c:MsgContext_AddFakeEdns"]}
{"id": "C70", "title": "Replies repeat the question", "statement": "A reply from a server is given to a client only if its question (name, type, class) is the one the client asked.", "quantifier": "every response and every set of waiting queries", "why_tests_cant": "Needs clients with equal identifiers or a forged response.", "anchors": ["mcontext.c:ModuleContextCompare", "udpm.c:UdpM_Works"]}
{"id": "C71", "title": "A TCP upstream gets exactly the query", "statement": "Whenever sending a query to a TCP upstream counts as done, the upstream was sent the two length bytes and the query, once, and nothing else. (False of the code: after a send that took only a part the whole message is sent again behind that part; proved when every send takes all or nothing.)", "quantifier": "every query and every behaviour of the kernel's send buffer", "why_tests_cant": "Partial sends depend on buffer occupancy and timing.", "anchors": ["tcpm.c:TcpM_SendWrapper", "tcpm.c:TcpM_Send_Actual"]}
{"id": "C72", "title": "SOCKS5 proxies are used correctly", "statement": "When the preparation of a connection through a SOCKS5 proxy succeeds, the proxy was asked to connect to the chosen server, it reported success, and what is read next from the connection is what the server sends. (False of the code: the proxy's address is not waited for, and a name of more than 125 characters is not skipped; the request itself is proved right always, the rest for proxies whose report is at hand.)", "quantifier": "every server address, proxy reply and segmentation", "why_tests_cant": "Segmentation and the proxy's choice of address form are outside a test's control.", "anchors": ["tcpm.c:TcpM_ProxyPreparation", "utils.c:ClearTCPSocketBuffer"]}
{"id": "C73", "title": "Waiting for several sockets", "statement": "After any history of adding and removing sockets, waiting on a set gives a socket that was added and not removed since, that is ready, and it comes with its own data; none is given only if none of them is ready; closing the set closes each member once. (Proved for descriptors below 1024; false above, where FD_SET writes behind the set. Adding data shorter than the room for it would clear bytes behind the unit: the offset is counted in sockets.)", "quantifier": "every history of adding and removing sockets, every set of ready sockets", "why_tests_cant": "Which sockets are ready together, and the numbers the kernel gives out, are unbounded histories.", "anchors": ["socketpuller.c:SocketPuller_Add", "socketpuller.c:SocketPuller_Select", "socketpool.c:SocketPool_Add", "socketpool.c:SocketPool_FetchOnSet"]}
{"id": "C74", "title": "Queries over TCP are what the client framed", "statement": "Whatever clients send over TCP and in whatever pieces it arrives, every query passed on belongs to an accepted connection, carries that connection's socket for the reply and that client's address, and the queries of one connection are, in order, the messages at the beginning of what its client sent, each with its length in front.", "quantifier": "every number of clients, every byte stream, segmentation, order of readiness and reuse of descriptors", "why_tests_cant": "Interleavings of connections and segmentations are unbounded.", "anchors": ["tcpfrontend.c:TcpFrontend_Work"]}
{"id": "C75", "title": "Queries over TCP are passed on however they are cut", "statement": "A client's framed query of acceptable length is passed on in however many pieces it arrives. (False of the code: the connection is dropped if the length or the message comes in two pieces; proved when each comes in one piece, for first and later queries.)", "quantifier": "every query and every segmentation", "why_tests_cant": "Segmentation is the network's choice.", "anchors": ["tcpfrontend.c:TcpFrontend_Work"]}
{"id": "C76", "title": "TCP clients that leave cost nothing", "statement": "When a client has closed its connection and this was noticed, its descriptor is closed. (False of the code: each such client leaves a descriptor open for ever; after 1020 of them the next client brings undefined behaviour. Proved: no descriptor is lost in any other way, and whatever is waited for is open.)", "quantifier": "every history of clients", "why_tests_cant": "The leak shows after about a thousand connections.", "anchors": ["tcpfrontend.c:TcpFrontend_Work"]}
{"id": "C77", "title": "One TCP client cannot stop the others", "statement": "No TCP client can keep the program from serving others. (False of the code: it waits without limit for a client that has connected and sends nothing. Proved if clients send whole messages only.)", "quantifier": "every behaviour of clients", "why_tests_cant": "A silent client is an infinite behaviour.", "anchors": ["tcpfrontend.c:TcpFrontend_Work"]}
{"id": "C78", "title": "All TCPLocal addresses are listened on", "statement": "Every TCPLocal line whose address can be opened is waited for. (False of the code: the lines behind one that fails to listen are skipped; proved if none fails so.)", "quantifier": "every list of TCPLocal lines and every failure", "why_tests_cant": "Failures of listen are hard to provoke.", "anchors": ["tcpfrontend.c:TcpFrontend_Init"]}
{"id": "C79", "title": "Connections to servers are used in order", "statement": "Whatever servers, proxies and the system do and whatever is asked: on every connection to a TCP server or proxy at most one query is outstanding, every query goes to the server the connection leads to, a proxy is told once where to connect before anything else is sent, nothing is done on a descriptor that is not open, connections lead only to configured servers or proxies, and the open descriptors are exactly the one for incoming queries and those of open connections.", "quantifier": "every configuration, every history of queries, responses, failures, readiness, clock and descriptor numbers", "why_tests_cant": "Histories of pooled connections are unbounded and depend on timing.", "anchors": ["tcpm.c:TcpM_Connect", "tcpm.c:TcpM_Send_Actual", "tcpm.c:TcpM_Works"]}
{"id": "C80", "title": "Stopping a TCP module closes everything once", "statement": "When a TCP module is stopped, after any history, every open descriptor is closed exactly once and no other. (False of the code: the descriptor for incoming queries is closed twice, so a descriptor another thread has just got can be closed; the rest is proved: apart from that first close every open descriptor is closed once.)", "quantifier": "every history before the stop", "why_tests_cant": "The second close only hurts if another thread opens a descriptor in between.", "anchors": ["tcpm.c:TcpM_Cleanup", "socketpool.c:SocketPool_CloseAll"]}
{"id": "C81", "title": "TCP queries are sent only for a reason", "statement": "A query is sent to a TCP server only if it has just been read \u2013 once, or in parallel mode at most as often as there are servers \u2013 or if a connection that had worked before ended without answering it while it is still stored: then once more. Nothing else is ever sent.", "quantifier": "every history", "why_tests_cant": "Stale pooled connections depend on server timeouts.", "anchors": ["tcpm.c:TcpM_Send_Actual", "tcpm.c:TcpM_Works"]}
{"id": "C82", "title": "TCP servers cannot bring the module down", "statement": "Whatever servers do, the module goes on. (False of the code: a server that does not answer connection attempts makes every query leave one more descriptor open until FD_SET overflows at the 1021st; the rotation through servers can overflow an int. Proved: it goes on as long as descriptors are below 1024 and random numbers are not near the largest int.)", "quantifier": "every history", "why_tests_cant": "Needs a thousand queries within a connection timeout, or one value of rand().", "anchors": ["tcpm.c:TcpM_Connect", "tcpm.c:TcpM_Connect_Recycle"]}
{"id": "C83", "title": "Queries are sent when a connection works", "statement": "A query that is read is sent if an idle working connection is at hand, and in parallel mode to each server that has one. (False of the code: only one connection is tried, which may be a refused one; in parallel mode a late connection takes the place of another server's. Proved without proxies when all connections are ready and take data.)", "quantifier": "every history and every readiness", "why_tests_cant": "Depends on which of several sockets becomes writable first.", "anchors": ["tcpm.c:TcpM_Send_Actual", "tcpm.c:TcpM_Connect"]}
{"id": "C84", "title": "Named address lists hand out configured addresses", "statement": "For a host entry that refers to a list defined with GoodIPList, the address in the answer is one of those added to that list with GoodIPListAddIP, in whatever order and however often the lists are checked; there is no answer only if the list is not defined or has no address. Lines of any other form are refused without undefined behaviour.", "quantifier": "all configurations (any number of lists and addresses, any line text), all histories of checks with any outcome of the attempts to connect", "why_tests_cant": "The answer depends on the history of checks, whose outcomes come from the network; bad lines read uninitialised memory, which a test sees as any value.", "anchors": ["goodiplist.c: InitListsAndTimes, AddToLists, AddTask, ThreadJod, GoodIpList_Get", "default.en.config: GoodIPList, GoodIPListAddIP"]}
{"id": "C85", "title": "The address handed out is the fastest", "statement": "After a check of a list, the address handed out is the one that accepted a connection first; if none did within five seconds, the address handed out is the same as before. Other lists are not affected.", "quantifier": "all configurations, all histories of checks, all outcomes and times of the attempts to connect", "why_tests_cant": "Outcomes and times of connections come from the network; refused connections and several answers at once are hard to produce on demand.", "anchors": ["goodiplist.c: CheckAList, ThreadJod", "socketpuller.c: SocketPuller_Select", "default.en.config: AppendHosts (Type 1)"]}
{"id": "C86", "title": "Checking a list of addresses leaks no sockets", "statement": "Every socket opened for checking a list is closed by the end of the check, and closed only once.", "quantifier": "all lists and all outcomes of socket, fcntl and connect for each address", "why_tests_cant": "The failing system calls cannot be provoked in a test, and a leak shows only after many checks.", "anchors": ["goodiplist.c: CheckAList", "socketpool.c: SocketPool_CloseAll"]}
{"id": "C87", "title": "The statistics count every query once, for its own name and kind", "statement": "After any sequence of queries the page of statistics has one row for each name asked for, whose numbers are those of the queries for this name of each kind, and the sums are those of all queries.", "quantifier": "all sequences of queries and of pages written meanwhile, all names", "why_tests_cant": "the table, the lock that lets queries pass uncounted and the overflow only show for particular histories", "anchors": ["domainstatistic.c:DomainStatistic_Add", "domainstatistic.c:DomainStatistic_Works", "stringchunk.c:StringChunk_Match"]}
{"id": "C88", "title": "The page of statistics says what the names and numbers are", "statement": "From the rows written to the page of statistics the names and all their numbers can be read back, each under its own heading.", "quantifier": "all tables of names (any bytes a client can send) and numbers", "why_tests_cant": "only names with particular characters show it", "anchors": ["domainstatistic.c:DomainStatistic_Works"]}
{"id": "C89", "title": "The log loses nothing when its file is changed", "statement": "Whatever the size of messages and files and whatever the system answers, the log files in the order of their numbers, followed by the present one, hold what was there before and all messages in order; no other file is touched; a file is only put away when it is long enough.", "quantifier": "all sequences of messages, contents of the folder, lengths and outcomes of renaming and opening", "why_tests_cant": "failures of the system and the files already there must be arbitrary", "anchors": ["logs.c:Log_Print", "logs.c:CheckLength", "logs.c:Log_Init", "utils.c:FileIsReadable"]}
{"id": "C90", "title": "The cache survives a clean restart", "statement": "Over any sequence of operations and clean stops and starts that reload the cache file, with any change of the options IgnoreTTL and CacheParallel in between, a record that is served stays served until its lifetime ends, and lookups return only records that were stored under that key, never stale ones.", "quantifier": "all histories of stores, sweeps and restarts; all keys, times and options", "why_tests_cant": "a test restarts once, in one state of the file", "anchors": ["dnscache.c:ReloadCache", "dnscache.c:CreateNewCache", "cacheht.c:CacheHT_ReInit"]}
{"id": "C91", "title": "A program that is killed leaves a usable cache file", "statement": "Wherever the program is killed, also in the middle of storing a record, of a sweep or of making the file, the next start can use the cache file: lookups end, the header is intact, records served before and not expired are still served, and an interrupted operation has happened completely or not at all.", "quantifier": "all histories, all kill points (after every single store), any number of kills", "why_tests_cant": "the windows are a few instructions long, and the damage shows only after particular later operations", "anchors": ["dnscache.c:DNSCache_AddAItemToCache", "dnscache.c:DNSCacheTTLCountdown_Task", "cacheht.c:CacheHT_FindUnusedNode", "cacheht.c:CacheHT_RemoveFromSlot", "dnscache.c:CreateNewCache"]}
{"id": "C92", "title": "An existing cache file is taken only if it fits, and otherwise left alone", "statement": "A start takes an existing cache file exactly if it is told to reload and the file begins with the version of the format and the configured size; a file that is refused is left as it is; a file that is taken can be used.", "quantifier": "all contents and lengths of files, all sizes and options", "why_tests_cant": "arbitrary contents of files", "anchors": ["dnscache.c:IsReloadable", "dnscache.c:InitCacheInfo", "dnscache.c:DNSCache_Init", "common.h:CREATE_FILE_MAPPING"]}
{"id": "C93", "title": "A sweep beside other threads removes only what has expired", "statement": "When the periodic sweep of the cache runs while another thread stores a record, at whatever instruction of the other thread it tests the records, it removes only expired ones: the record just stored, and all others that live, are still served.", "quantifier": "all states of the cache, all records, all instants of the test within the stores of the other thread", "why_tests_cant": "the window is between two instructions", "anchors": ["dnscache.c:DNSCacheTTLCountdown_Task", "dnscache.c:DNSCache_AddAItemToCache"]}
{"id": "C94", "title": "Showing a message in the log never overruns the text buffer", "statement": "When the records of a message are written into the log's buffer as text, nothing is written outside that buffer, whatever the message contains and announces.", "quantifier": "all byte strings taken as messages, of any length and with any contents behind them, all record counts in the header", "why_tests_cant": "The overrun needs a particular combination of an announced count with six digits and texts that fill the buffer to the last byte.", "anchors": ["dnsparser.c:GetAllAnswers", "dnsparser.c:TextifyData", "dnsparser.c:ParseTxt", "dnsparser.c:ParseData", "logs.c:ShowNormalMessage"]}
{"id": "C95", "title": "The log shows what a message contains", "statement": "For a message with a question the text in the log has, for each record in order, the lines that its type calls for (address, name, text, mail exchanger, start of authority, number of bytes), as many records as fit, and then the number of those not shown; it depends on nothing but the message, and different types have different names.", "quantifier": "all well-formed messages below 65536 bytes with any number of questions and records, compressed names, buffer sizes, and memory behind the message", "why_tests_cant": "Every combination of record types, name compression and remaining space would have to be tried.", "anchors": ["dnsparser.c:GetAllAnswers", "dnsparser.c:TextifyData", "dnsparser.c:ParseSOA", "dnsparser.c:ParseMailEx", "dnsrelated.c:DNSGetTypeName"]}
{"id": "C96", "title": "A message cannot forge lines of the log", "statement": "The text of a message has one line per shown field (and one more for the records not shown), so that the sender of a response cannot make the log contain lines of its own.", "quantifier": "all well-formed messages, all contents of names and texts", "why_tests_cant": "The contents are chosen by whoever sends the response.", "anchors": ["dnsparser.c:DNSRRGetString", "dnsparser.c:ParseTxt", "dnsparser.c:UnpackLabeledName"]}
{"id": "C97", "title": "Replacing a text in a buffer is exact and never overruns it", "statement": "With a length that is not larger than the buffer, every occurrence of the searched text is replaced (from left to right, inserted text is not searched again) exactly when the result with its terminator fits the length; otherwise nothing is changed; nothing is written outside the buffer.", "quantifier": "all texts, all searched texts that are not empty, all replacements, all buffer sizes and lengths", "why_tests_cant": "All overlaps of occurrences, shorter and longer replacements and exact fits.", "anchors": ["utils.c:ReplaceStr", "utils.c:ReplaceStr_WithLengthChecking", "utils.c:CountSubStr"]}
{"id": "C98", "title": "The hosts file is replaced as a whole", "statement": "At every moment of an update of the hosts file, whatever fails and wherever the program is killed, the file is there and is either the old one or the complete new one, never a mixture or a part; an update that does not succeed leaves it alone; no other files are touched.", "quantifier": "all sources, all answers of the network and the system, all kill points, any number of updates and kills", "why_tests_cant": "the windows are between two system calls, and downloads break off anywhere", "anchors": ["downloader.c:GetFromInternet_MultiFiles", "downloader.c:GetFromInternet_SingleFile", "utils.c:CopyAFile"]}
{"id": "C99", "title": "A new hosts file holds exactly what the sources gave", "statement": "An update fetches every source in order, takes for each one what its first successful attempt (or its local file) gave and nothing of failed attempts, writes all of it, each source on lines of its own, and reports success exactly if a source gave something; success means the file is complete.", "quantifier": "all lists of sources, all sequences of failed and successful attempts, all contents, leftovers of earlier updates, failures of writing", "why_tests_cant": "attempts fail in any pattern, and parts of files stay behind", "anchors": ["downloader.c:GetFromInternet_MultiFiles", "downloader.c:GetFromInternet_SingleFile", "downloader.c:GetFromInternet_Base", "utils.c:GetLocalPathFromURL", "utils.c:CopyAFile"]}
{"id": "C100", "title": "An update of the hosts ends", "statement": "An update ends, whatever the sources do: with a limit on the attempts always, and without one too, so that a source that cannot be reached does not keep the others from being used.", "quantifier": "all sources, all answers of the network, all limits", "why_tests_cant": "that something never ends cannot be tested", "anchors": ["downloader.c:GetFromInternet_SingleFile", "dynamichosts.c:GetHostsFromInternet_Thread"]}
{"id": "C101", "title": "After an update, lookups follow all sources", "statement": "After an update that succeeds, names are looked up in exactly the entries of all sources, in their order; after one that fails, or whose file cannot be read, lookups are as before; after a start they follow the hosts file there is; entries of a source that cannot be read now stay.", "quantifier": "all sources and contents, all names and types, all earlier tables", "why_tests_cant": "covers every line of every source and every name at once", "anchors": ["dynamichosts.c:GetHostsFromInternet_Thread", "dynamichosts.c:DynamicHosts_Load", "dynamichosts.c:DynamicHosts_Init", "downloader.c:GetFromInternet_MultiFiles"]}
{"id": "C102", "title": "The command line means what the help says", "statement": "Every sequence of the options -f FILE, -q, -D, -d and of other words is read as documented: the last -f names the configuration file, flags may come in any order and be repeated, other words are reported; -h and -p stop the reading; with -q nothing is printed. No command line makes the program read behind its arguments.", "quantifier": "all command lines", "why_tests_cant": "there is no end of command lines; reading past argv usually shows nothing", "anchors": ["main.c:ArgParse", "main.c:main"]}
{"id": "C103", "title": "Without -f the file config in the home's .dnsforwarder directory is used", "statement": "For every home directory the configuration file is HOME/.dnsforwarder/config, and computing this path stays inside its memory.", "quantifier": "all home directories, of any length", "why_tests_cant": "homes of test machines are short", "anchors": ["main.c:GetDefaultConfigureFile", "utils.c:GetConfigDirectory", "main.c:main"]}
{"id": "C104", "title": "Options hold what the file says, or else the documented default", "statement": "Once the configuration file is read, every option of the documented table has the value the lines of the file give to it, and its documented default if no line names it or there is no file, for every directory of the user.", "quantifier": "all files, all home directories", "why_tests_cant": "covers every combination of lines and each of the 54 options", "anchors": ["main.c:EnvironmentInit", "readconfig.c:ConfigAddOption", "readconfig.c:ConfigRead"]}
{"id": "C105", "title": "What queries meet is what the configuration file says", "statement": "If the program starts, the stages a query goes through (disabled types, domains and lists, hosts from the file and from the download, server groups, cache switches, rules and size, addresses to block or replace, lists of good addresses) are those the configuration file and the files it names stand for.", "quantifier": "all command lines, all configuration files and files named in them, all answers of the system", "why_tests_cant": "the configuration is an unbounded text and interacts with defaults of every stage", "anchors": ["main.c:main", "mmgr.c:MMgr_Init", "mmgr.c:Modules_Init", "hosts.c:Hosts_Init", "statichosts.c:StaticHosts_Init", "dynamichosts.c:DynamicHosts_Init", "filter.c:FilterType_Init", "ipmisc.c:IpMiscSingleton_Init", "dnscache.c:DNSCache_Init", "goodiplist.c:GoodIpList_Init"]}
{"id": "C106", "title": "The program listens exactly where it is told to", "statement": "If the program starts, it takes queries exactly at the addresses of the options UDPLocal and TCPLocal, in their order, without those the system refuses; it does not run without any.", "quantifier": "all lists of addresses, all refusals of the system", "why_tests_cant": "addresses and refusals combine without bound", "anchors": ["udpfrontend.c:UdpFrontend_Init", "tcpfrontend.c:TcpFrontend_Init", "main.c:main"]}
{"id": "C107", "title": "The answer of a server reaches the client that asked", "statement": "If a client's query for a name has been forwarded to a server, and that server answers it with a well-formed response carrying its identifier and its name before the program gives up on it (two seconds), then the client \u2013 and nobody else \u2013 is sent exactly this response (with the configured replacements of addresses), over the transport it used, even when other clients use the same identifier at this server meanwhile for other names and are answered first.", "quantifier": "all programs' histories before, between and after, all clients, names, servers, transports, responses, configured addresses", "why_tests_cant": "histories, interleavings and identifiers combine without bound", "anchors": ["mcontext.c:MContext_Add", "mcontext.c:MContext_FindAndRemove", "udpm.c:UdpM_Works", "tcpm.c:TcpM_Works", "dnsforwarder.c", "ipmisc.c:IPMisc_Process", "common.c:IHeader_SendBack"]}
{"id": "C108", "title": "An alias of the hosts file is resolved to what the servers say about its target", "statement": "For a query for a name with an alias in the hosts data, the program asks the servers the same type for the target, with recursion desired and a single question. From a response that answers it with aliases and addresses in order, it makes a well-formed reply: the identifier and the question of the client, the flags of the response, first the alias and then exactly the answers of the response in their order, and an EDNS record if the client uses EDNS. No answer is lost.", "quantifier": "all names, targets, types, identifiers, well-formed responses with any compression, any room", "why_tests_cant": "names, compression and sequences of records combine without bound", "anchors": ["hostsutils.c:HostsUtils_GenerateQuery", "hostsutils.c:HostsUtils_CombineRecursedResponse", "dnsgenerator.c:DNSGenerator_CopyA", "dnsgenerator.c:DNSGenerator_CopyCName", "dnsrelated.c:DNSCopyLable", "dnsgenerator.c:DNSCompress"]}
{"id": "C109", "title": "A query for an alias of the hosts data gets the answer about its target", "statement": "When a client asks for a name that the hosts data make an alias of another name, and the server's answer about that other name arrives in time, then the client (and nobody else) gets one reply: with its identifier and its question, the alias, and the records of the server's answer. No client is ever given the alias or the addresses of a name another client asked for.", "quantifier": "every history of the program from its start: any number of clients, servers, timeouts, reloads, in any order, before, between and after the client's query, the worker's query, the answer and the reply; every name, identifier and response of the stated form", "why_tests_cant": "the reply depends on which place in a table a query got, on what was freed and used again meanwhile, and on the order in which four threads handle their messages", "anchors": ["hosts.c: Hosts_SocketLoop", "hostsutils.c: HostsUtils_GenerateQuery, HostsUtils_CombineRecursedResponse", "mcontext.c: ModuleContext_Add, ModuleContext_GenAnswerHeaderAndRemove", "udpm.c", "tcpm.c", "mmgr.c: MMgr_Send"]}
{"id": "C110", "title": "Well-formed traffic never crashes or hangs the program", "statement": "From its start on, the program processes every event to its end - a query by UDP or TCP, a server's response, a query taken from or lost in an internal queue, a timer, a reload - without undefined behaviour (no access outside a buffer, no use of what does not exist) and without an endless loop, in whatever order the events come. (False of the code for arbitrary messages: a query for a name that is a pointer to itself is read for ever; the part proved is for well-formed messages.)", "quantifier": "every history of events of any length with any configuration in force at each of them, such that the queries are well-formed DNS messages with any number of questions of class IN and any records, the responses too, and names are as RFC 1035 limits them (in responses without bytes of 192 and more), and buffers hold what is asked of them", "why_tests_cant": "Whether a message can be processed depends on what the cache, the hosts data, the waiting queries and the alias worker hold at that time, so on all that happened before; tests see a few histories.", "anchors": ["mmgr.c: MMgr_Send", "dnscache.c: DNSCache_AddItemsToCache, DNSCache_FetchFromCache", "hosts.c: Hosts_SocketLoop, Hosts_Get", "udpm.c", "tcpm.c", "iheader.c: IHeader_Fill", "ipmisc.c: IPMisc_Process"]}
{"id": "C111", "title": "Server groups are used only while they exist", "statement": "Reloading the server groups while queries are being sent never makes the program use memory that has been freed and never frees anything twice; a group in use keeps working until it is replaced, and a replaced group is freed once its threads have ended.", "quantifier": "every number of UDP, TCP and proxied groups, of sending threads and of reloads, and every interleaving of the senders, the workers and sweepers of the groups, the loading thread and the threads that free replaced groups", "why_tests_cant": "a use after free needs one of countless schedules between five kinds of threads; tests run one of them and seldom crash at the faulty access", "anchors": ["mmgr.c:Modules_Load", "mmgr.c:Modules_SafeCleanup", "mmgr.c:Modules_Free", "mmgr.c:MMgr_Send", "udpm.c:UdpM_Works", "udpm.c:UdpM_Cleanup", "udpm.c:UdpM_Sweep_Thread", "udpm.c:UdpM_Send", "tcpm.c:TcpM_Works", "tcpm.c:TcpM_Cleanup", "tcpm.c:TcpM_Send"]}
{"id": "C112", "title": "Replies are owed, however the threads are scheduled", "statement": "Whatever the scheduling of the threads that receive queries, talk to the servers, follow aliases, maintain the cache and exchange the configuration: every message a client receives can be given a query of its own, received before from that client on that socket and bearing that identifier; no reply is sent twice, to somebody else or with another query's identifier because two messages passed each other inside the program.", "quantifier": "all interleavings of the steps of all threads (cut at every access to shared data), all queries, responses of any content, losses, sweeps, reloads and configurations", "why_tests_cant": "the number of interleavings is astronomic and the bad ones need a switch between two particular instructions; a stress test samples a vanishing part of them and cannot show the absence of the others", "anchors": ["udpfrontend.c: UdpFrontend_Work", "tcpfrontend.c: TcpFrontend_Work", "mmgr.c: MMgr_Send", "udpm.c: UdpM_Works, UdpM_Send", "tcpm.c: TcpM_Works, TcpM_Send", "hosts.c: Hosts_SocketLoop", "dnscache.c: DNSCache_AddItemsToCache, DNSCache_FetchFromCache", "mcontext.c: ModuleContext_GenAnswerHeaderAndRemove"]}
{"id": "C113", "title": "Well-formed traffic is processed however the threads are scheduled", "statement": "As long as the queries and responses that arrive are well-formed and what the cache holds fits behind the query, no interleaving of the threads that receive queries, talk to the servers, follow aliases, maintain the cache and exchange the configuration leads to undefined behaviour or to an endless loop: every step of every thread is made.", "quantifier": "every sound configuration at every step, every history of the steps of all threads from the start of the program on, cut at every access to something shared", "why_tests_cant": "the number of interleavings of only a few messages is beyond what tests can run, and what one thread leaves behind (a cached record, a waiting query, a place in the alias worker's table) is used by others much later", "anchors": ["mmgr.c MMgr_Send", "hosts.c Hosts_SocketLoop", "udpm.c UdpM_Works", "tcpm.c TcpM_Works", "dnscache.c DNSCache_AddItemsToCache DNSCache_FetchFromCache", "udpfrontend.c UdpFrontend_Work", "tcpfrontend.c TcpFrontend_Work"]}
{"id": "C114", "title": "Threads that wait for one another never block the program", "statement": "However the threads are scheduled, a thread that waits for a lock waits, directly or through others, for a thread that can go on; no thread ever waits for itself; a thread that has ended, or that waits for a message, for the clock or for a download, holds no lock. No thread holds a lock while it sends a reply to a client. (The last is false of the code: an answer from the reloadable hosts data is sent while their lock is held, and sending to a TCP client that does not read takes as long as the client likes.)", "quantifier": "every number of threads, of server groups, and every interleaving of their steps, with locks that prefer readers or writers", "why_tests_cant": "A deadlock needs several threads to stop at particular places at the same time; the number of schedules is without bound.", "anchors": ["mmgr.c:MMgr_Send", "udpm.c:UdpM_Send", "udpm.c:UdpM_Works", "udpm.c:SweepTask", "dnscache.c:DNSCache_AddItemsToCache", "domainstatistic.c:DomainStatistic_Add", "logs.c:Log_Print", "rwlock.h"]}
{"id": "C115", "title": "Shared data is touched by one writer at a time", "statement": "However the threads are scheduled, two threads are never about to touch the same shared data at the same time if one of them writes to it. (False of the code for the socket and the counters of a UDP group, for the lists of good addresses, for the cache while old records are looked for, and for the pointers to the filter, the hosts data and the address lists before their locks are taken; true for the disabled domains, the hosts data, the address lists, the map of the groups, the open queries, the statistics and the log.)", "quantifier": "every number of threads, of server groups, and every interleaving of their steps", "why_tests_cant": "Data races show only on particular schedules and machines; a test sees one of them.", "anchors": ["mmgr.c:MMgr_Send", "udpm.c:UdpM_Send", "udpm.c:UdpM_Works", "filter.c:IsDisabledDomain", "dnscache.c:DNSCacheTTLCountdown_Task", "domainstatistic.c:DomainStatistic_Works", "goodiplist.c:ThreadJod", "logs.c:Log_Print"]}
{"id": "C116", "title": "Memory is given back once, and all of it", "statement": "Over the life of a server group (made from the configuration, used for any number of queries, stopped when the groups are loaded again) and over any number of loads of the hosts, the disabled domains, the mapped addresses and the list of server groups, every block of memory that was requested is given back exactly once, none is given back twice and none is used before it was set, whichever requests for memory the system refuses.", "quantifier": "all numbers of addresses and proxies, all histories of use, all sequences of loads, all patterns of refused requests, all states of the heap before", "why_tests_cant": "Leaks and double frees depend on the exit path taken; the paths are chosen by which request is refused and by odd configurations, which tests do not reach, and a double free often goes unnoticed.", "anchors": ["udpm.c:UdpM_Init", "udpm.c:UdpM_Cleanup", "tcpm.c:TcpM_Init", "tcpm.c:TcpM_Cleanup", "socketpool.c:SocketPool_Free", "dynamichosts.c:DynamicHosts_Load", "filter.c:DisabledDomain_Init", "ipmisc.c:IpMisc_Init", "mmgr.c:Modules_Load", "mmgr.c:Modules_Free"]}
{"id": "C117", "title": "The program starts exactly if what it needs can be had", "statement": "Whatever flags are given and whatever documented options the configuration file sets, the program comes to serve queries exactly if: some configured address can be bound (for TCP, also listened on, with no earlier TCP address that can be bound but not listened on); the configured server groups are complete and each can be started; the cache is off, or its size is at least 102385 and at most 2147483632 and, if it is kept in a file, the file can be used; the log is off, or its path has fewer than 256 bytes, it can be written and its threshold is positive; the statistics are off, or their interval is positive and, if there is a template with the mark, at most 2147483 seconds, and the page can be written; the interval for updates of the hosts, if there are any, is at most 2147483 seconds; the timer gets a pipe; and the internal worker for aliases finds a port. No other documented setting keeps it from starting.", "quantifier": "All command lines, all configuration files with documented values, all outcomes of binding, listening, starting groups and opening files.", "why_tests_cant": "Which of the many settings stops the program depends on combinations of options, files and what the system grants; a test sees one system and one configuration.", "anchors": ["main.c: main", "udpfrontend.c: UdpFrontend_Init", "tcpfrontend.c: TcpFrontend_Init", "mmgr.c: MMgr_Init", "dnscache.c: DNSCache_Init", "hosts.c: Hosts_Init", "filter.c: Filter_Init", "ipmisc.c: IpMiscMapping"]}
{"id": "C118", "title": "A query is treated as the configuration file says", "statement": "Whatever flags are given and whatever the configuration file holds: if the program starts, then at any later time, whatever clients and servers have sent meanwhile, a client's query is treated as the lines of the file say - refused if its type or name is disabled or IPv6 is blocked for it, handed to the alias worker or answered with the entry of the hosts data if there is one (directly given ones first), and otherwise answered from the cache (if it is on) or sent to one of the groups the documentation says, by this group's protocol, unchanged but for an EDNS record if the option asks for it. Nothing else is sent.", "quantifier": "all command lines, configuration files and files they name, histories, clients, queries", "why_tests_cant": "the space of configurations, histories and queries is unbounded, and the pieces are only tested one by one", "anchors": ["main.c:main", "readconfig.c:ConfigRead", "mmgr.c:MMgr_Init", "mmgr.c:MMgr_Send", "filter.c", "hosts.c:Hosts_Get", "dnscache.c:DNSCache_FetchFromCache", "udpm.c:UdpM_Send", "tcpm.c:TcpM_Send"]}
{"id": "C119", "title": "UDP servers are asked in turn, over sockets that work", "statement": "The queries of a UDP group whose servers are named in a documented form go only to these servers: in parallel mode each query once to every server of the first one's family, otherwise to one server, which is kept until queries have waited too long and then followed by the next. Whatever happens, at most one socket is open, only it is used, every socket is closed once, a socket is given up exactly when waiting fails or nothing is received although more than eight queries had waited too long, and a group that was not stopped has a socket again as soon as the system gives one; queries are sent over a socket of the server's family. (Two parts are false of the code: with servers of both families the socket of the old server is used for the new one, so that a working server may never get a query; and one failure to make a socket ends the group for good. Proved otherwise.)", "quantifier": "all lists of servers in a documented form, both modes, all histories of queries, time-outs, received messages, socket failures and stops", "why_tests_cant": "Needs silence of servers over many time-outs, failures of socket creation, and servers of both families, in every order", "anchors": ["udpm.c: UdpM_Init, UdpM_Works, UdpM_Send, SweepWorks, UdpM_Cleanup", "addresslist.c: AddressList_GetOne, AddressList_Advance, AddressList_GetPtrListOfFamily"]}
{"id": "C120", "title": "Only the servers asked are believed", "statement": "A message that arrives at the socket of a UDP group is looked at only if one of the group's servers sent it. (False of the code: the sender is never asked for, so whoever knows the port and the identifier of a waiting query can answer it. Proved: what is looked at was received whole over the open socket, the sender making no difference, and it is used only for a waiting query with the same identifier and name, see C66.)", "quantifier": "all groups, all histories, all senders and messages", "why_tests_cant": "A test does not show that no third party's datagram is ever accepted", "anchors": ["udpm.c: UdpM_Works", "mcontext.c: ModuleContext_GenAnswerHeaderAndRemove"]}
{"id": "C121", "title": "The program's own sockets are its own", "statement": "The sockets over which parts of the program speak to each other are bound to the loopback address and nothing else, to the first free one of ten thousand ports from the given one on; no two share an address; a failed attempt leaves no socket open, and the call fails only if no port was free; and what arrives there was sent by the program itself. (The last part is false of the code: the sender is not looked at and the first bytes are used as a pointer, so any program on the machine can make it read anywhere. Proved otherwise.)", "quantifier": "all starting ports up to 55536, both address families, all outcomes of socket and bind at every attempt, any number of TCP groups", "why_tests_cant": "Needs every pattern of occupied ports and socket failures, and foreign datagrams", "anchors": ["utils.c: TryBindLocal", "hosts.c: Hosts_Init, Hosts_SocketLoop", "tcpm.c: TcpM_Init"]}
{"id": "C122", "title": "The statistics file is the template with the newest numbers in it", "statement": "Whenever no page is being written, the file of statistics is exactly the template with, in place of the first marker, a script that gives the times, a row for each name and the sums of the queries counted up to the last writing; nothing of an earlier page is left in it, although it is written over and never cut.", "quantifier": "all templates and markers, all histories of queries and writings, all clocks that are not set back, any interleaving of queries with the writing", "why_tests_cant": "whether something is left of an earlier page depends on the lengths of all numbers in all pages before", "anchors": ["domainstatistic.c:GetPreAndPost", "domainstatistic.c:DomainStatistic_Works", "domainstatistic.c:DomainStatistic_Init", "utils.c:GetTextFileContent", "utils.c:GetFileSizePortable"]}
{"id": "C123", "title": "Long use does not make the tables of waiting queries grow", "statement": "The memory for waiting queries is used again: for every history of the whole program, no table of waiting queries has room for more queries than waited in it at one time, and if the table is swept at least every g seconds and never more than n queries come within g + 2 seconds, it never has room for more than n, however many queries came and whether or not they were answered. The statistics, which are never emptied, have one entry for every name that was counted and no more; so their memory is bounded by the number of different names, and by nothing else.", "quantifier": "every sequence of insertions and removals in a search tree; every history of events of the whole program from its start; every rate of queries and every interval of sweeps; every sequence of counted queries", "why_tests_cant": "Growth shows only after days of use and depends on the history of all queries, answers and losses; a test sees a short stretch.", "anchors": ["bst.c: GetUnusedNode, Bst_Add, Bst_Delete", "mcontext.c: ModuleContext_Add, ModuleContext_Del, ModuleContext_GenAnswerHeaderAndRemove, ModuleContext_Sweep", "udpm.c: SweepWorks, UdpM_Works", "tcpm.c: SweepWorks, TcpM_Works", "domainstatistic.c: DomainStatistic_Add"]}
{"id": "C124", "title": "The memory with the servers' names is there when it is read", "statement": "Whatever server groups are loaded, from the configuration or from group files, and whatever the servers send or fail to send, the program never reads the text with the names of a group's servers or proxies after the memory with it has been given back.", "quantifier": "every order of starting groups, ending the reading of group files, results of receiving for UDP groups and connections made by TCP groups, with messages for debugging on or off", "why_tests_cant": "The text is read only in messages about errors and for debugging; freed memory mostly still holds the old text, so tests see nothing wrong.", "anchors": ["mmgr.c: Modules_InitFromFile", "udpm.c: UdpM_Init", "udpm.c: UdpM_Works", "tcpm.c: TcpM_Init", "tcpm.c: TcpM_Connect"]}
{"id": "C125", "title": "What becomes of a query depends on this query", "statement": "What the program does when a client's query arrives - refuse it, answer it from the hosts data or the cache, hand it to the alias worker, send it to a group, and with which bytes - depends on this query and its sender, the configuration and what the cache holds, and not on what any client has asked before: no client can learn from, or change, the fate of its own query what others have asked (but through the cache).", "quantifier": "all pairs of histories of events with the same groups in force and the same cache contents (or no cache), all clients, all queries", "why_tests_cant": "a relation between two runs: a test would have to compare all pairs of histories before the query", "anchors": ["udpfrontend.c UdpFrontend_Work", "tcpfrontend.c TcpFrontend_Work", "iheader.c IHeader_Fill", "mmgr.c MMgr_Send"]}
{"id": "C126", "title": "An update reads again what it is told to", "statement": "While the program runs, hosts are downloaded again and again. After each download the files the configuration names are read again: the list of disabled domains if ReloadDisabledList is set, the group files if ReloadGroupFile is set, the addresses to block and substitute if ReloadIPSubstituting is set, and the downloaded hosts always. What queries meet afterwards is what the files say at that moment, or what they said at the start if they are not to be read again; what cannot be read stays as it is; all else is unchanged. ModulesUpdateInterval is the time between two updates, and with -1 there are none.", "quantifier": "all configurations, all contents of all files at the start and at each update, any number of updates, and all queries after them", "why_tests_cant": "Tests see one or two reloads of one file; the statement is about every history of changes to every file under every combination of options, and about what must not change.", "anchors": ["dynamichosts.c: DynamicHosts_Init, DynamicHosts_Load, GetHostsFromInternet_Thread", "filter.c: Filter_Update, DisabledDomain_Init", "ipmisc.c: IpMiscMapping_Update, IpMiscMapping_Load", "mmgr.c: Modules_Update, Modules_Load"]}
{"id": "C127", "title": "What the hosts script prints or reads stays out of the program", "statement": "The program hands tasks (updates of hosts, sweeps, statistics) to its timer, and runs a user's script after hosts were downloaded. Whatever the script prints or reads through its standard descriptors, in the foreground and in the background (-d), with and without a log, the timer runs exactly the tasks it was given, in their order, and none is lost.", "quantifier": "all histories of tasks, scripts and opened and closed files and sockets, all tables of descriptors at the start, with and without -d and a log", "why_tests_cant": "Depends on which descriptor numbers happen to be free when the program goes into the background; a test with a script that prints nothing, or without -d, sees nothing.", "anchors": ["main.c: DaemonInit, main", "timedtask.c: TimedTask_Init, TimedTask_Add, TimeTask_Work", "dynamichosts.c: GetHostsFromInternet_Thread", "utils.c: Execute", "pipes.c: CREATE_PIPE"]}
{"id": "C128", "title": "The files the program keeps can be changed only by whom the user lets", "statement": "Whatever the program does with its files (log and its old parts, statistics, downloaded hosts and group files, cache), in the foreground or in the background: a file that is there afterwards has the permissions of one that was there before, or no permission that the user's file mode creation mask withholds.", "quantifier": "all histories of making, renaming and removing files, all masks, with and without -d", "why_tests_cant": "Tests look at the contents of files, not at their permissions, and are run without -d; the claim is about every mask and every order of operations.", "anchors": ["main.c: DaemonInit", "logs.c: Log_Init, CheckLength", "domainstatistic.c: DomainStatistic_Init", "downloader.c: GetFromInternet_MultiFiles, GetFromInternet_Base", "common.h: OPEN_FILE"]}
{"id": "C129", "title": "A path in the configuration names the file it spells", "statement": "Paths of group files, lists, substitution files and the hosts script are texts in the syntax of wordexp, as documented. For every such text, the file that is used is the one path the text spells; a text that spells no path is refused and reported, and does no harm.", "quantifier": "all texts, all buffers, whatever wordexp makes of a text", "why_tests_cant": "Texts with blanks, quotation marks, parentheses, or longer than the buffers are rare in tests, and what happens then depends on memory that was never set.", "anchors": ["utils.c: ExpandPath, ExpandPathTo", "mmgr.c: Modules_InitFromFile", "ipmisc.c: IpMiscMapping_Load", "dynamichosts.c: DynamicHosts_Init", "readconfig.c: ConfigRead"]}
{"id": "C130", "title": "Large responses are passed on whole or not at all", "statement": "If a server answers over UDP with a well-formed response of whatever size the client has allowed, the client that waits for it is given the whole of it (with the configured replacements of addresses), or is not given anything that claims to be it. As the code stands this is so of responses of up to 3704 bytes; of a larger one the client is given the first 3704 bytes, with nothing that says that some are missing.", "quantifier": "every well-formed response of any number of questions and records and of any size, every history of the program and every schedule of its threads", "why_tests_cant": "the limit is what is left of a buffer after a structure whose size no file states, and common responses are far below it", "anchors": ["udpm.c: UdpM_Works", "udpfrontend.c: UdpFrontend_Work", "iheader.h: IHeader, SOCKET_CONTEXT_LENGTH"]}
{"id": "C131", "title": "A reply from the cache is complete or says that it is not", "statement": "If the cache holds records of the name and type a client asks for, a reply taken from the cache carries all of them, or its header says that it is truncated. (False of the code: when the space behind the query ends, the reply is sent with the records that were written so far, with the beginning of the next one behind them and without the flag; proved for replies that fit.)", "quantifier": "every history of well-formed responses and clean-ups, every query of one question, every number and size of cached records, every time of the lookup", "why_tests_cant": "the space left depends on the length of the query, and the loss shows only when the cached records nearly fill it", "anchors": ["dnscache.c: DNSCache_FetchFromCache", "dnscache.c: DNSCache_GetRawRecordsFromCache", "dnsgenerator.c: DnsGenerator_RawData"]}
{"id": "C132", "title": "Replies over UDP are no larger than the client can take", "statement": "A client that asks over UDP without EDNS is sent at most 512 bytes, or a message that says it is truncated, if the servers that are asked over UDP keep to this limit. (False of the code: what a server says over TCP is sent on over UDP in full, whatever its size; proved: without local answers no reply is larger than the largest of the queries and responses that came in.)", "quantifier": "every history of queries, responses, updates and losses from the start of the program, every configuration of groups and filters, every size of message", "why_tests_cant": "small replies dominate in tests, and whether a large one arrives depends on the network and the client", "anchors": ["iheader.c: MsgContext_SendBack", "tcpm.c: TcpM_Works", "udpm.c: UdpM_Works"]}
{"id": "C133", "title": "Only clients that use EDNS are answered with it", "statement": "A reply has an EDNS record only if the query of the client had one: local replies (refusals, hosts data, the cache) have one exactly if the query has, servers are sent the client's query as it is, and what a server says that answers with EDNS only if asked with EDNS reaches a client with an EDNS record only if the client used EDNS. (False of the code with active protection: the program asks with EDNS for every client and hands the answers on as they are.)", "quantifier": "every well-formed query of one question, any hosts data, every history of the program and of its cache", "why_tests_cant": "an EDNS record in a reply to a client without EDNS is ignored by most resolvers tests use, and rejected by others", "anchors": ["iheader.c: MsgContext_AddFakeEdns", "dnscache.c: DNSCache_FetchFromCache", "hostsutils.c: HostsUtils_Try", "udpm.c: UdpM_Works"]}
{"id": "C134", "title": "Large queries are passed on whole or not at all", "statement": "If a client sends a well-formed query over UDP, of whatever size a datagram can have, what a server is sent is this query or nothing (without active protection, which adds a record). As the code stands this is so of queries of up to 3704 bytes; of a larger one the first 3704 bytes are sent on, which announce records that are not there.", "quantifier": "every well-formed query with any questions and records and of any size, every reachable state of the program and every configuration", "why_tests_cant": "queries this large do not occur by themselves, and nothing in the program reports the cut", "anchors": ["udpfrontend.c: UdpFrontend_Work", "udpm.c: UdpM_Send", "iheader.h: SOCKET_CONTEXT_LENGTH"]}
{"id": "C135", "title": "What the cache knows is not asked again", "statement": "If the cache holds a record for a name and a type, then until this record expires no query of any client for this name and type makes the program ask a server, whatever traffic and timers there are meanwhile. (False of the code for records of types it does not keep; proved for A, AAAA, MX, TXT and HTTPS.)", "quantifier": "every history of well-formed messages and timers before and after the record is held, every client over UDP or TCP, every time before the expiry, every filter and hosts data", "why_tests_cant": "whether a later query is sent depends on everything stored, swept and reloaded in between, so a test shows single histories only", "anchors": ["dnscache.c: DNSCache_FetchFromCache, DNSCache_AddItemsToCache", "mmgr.c: MMgr_Send", "udpm.c: UdpM_Works", "tcpm.c: TcpM_Works"]}
{"id": "C136", "title": "TCP groups connect to the servers and proxies they were given", "statement": "A TCP group connects to nothing but the servers of its configuration line, or, if SOCKS proxies are given, to nothing but these; each at the address and port written there (53 and 1080 if none is written), over a socket of the address's own family, also if the addresses are of both families; and a proxy is asked for the address and port of a server of the line.", "quantifier": "every line of servers and of proxies, every history of queries, responses, failures and reconnections, every choice of the system", "why_tests_cant": "The numbers of servers are kept in connections over a history of reuse, failures and proxies; a wrong pairing of address and family or of server and number shows only for some lists and some histories.", "anchors": ["addresslist.c: AddressList_GetPtrList", "tcpm.c: TcpM_Init, TcpM_Connect, TcpM_Connect_Addr, TcpM_Send_Actual, TcpM_ProxyPreparation"]}
{"id": "C137", "title": "The option -p prepares what a later start needs", "statement": "Whatever is written before and behind it, `-p` makes the directory .dnsforwarder in the user's home directory, in which nobody else may make files, tells the user where to put the configuration file, reports the reason if the directory cannot be made, and ends without serving; and the file so named is the one a program started without `-f` reads.", "quantifier": "every command line, every user and home directory, every outcome of making the directory", "why_tests_cant": "Depends on the length of the home directory and on what else is on the command line; overflow of a buffer need not show in a test.", "anchors": ["main.c: PrepareEnvironment, ArgParse, GetDefaultConfigureFile", "utils.c: GetConfigDirectory"]}
{"id": "C138", "title": "The folders in paths of the configuration are those documented", "statement": "In the paths of the configuration file ${CONFIGFILEDIRECTORY} stands for the folder in which this file is and ${PROGRAMDIRECTORY} for the user's folder .dnsforwarder, each with a slash at the end, wherever the file is and however its path is given.", "quantifier": "every path of a configuration file, every home directory, every content of the file, every behaviour of the expansion", "why_tests_cant": "The folder is cut out of the path in a buffer of fixed size; tests use short paths with a folder in them, not names without one or paths longer than the buffer.", "anchors": ["main.c: EnvironmentInit", "utils.c: GetPathPart, GetConfigDirectory, SetProgramEnvironment", "default.en.config: CONFIGFILEDIRECTORY"]}
