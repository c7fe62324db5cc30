{"id": "C01", "title": "Read your own write", "statement": "After Set(k, v) on a trie without route patterns, MustGet(k) returns exactly v, whatever was stored, overwritten or removed before (k contains no space character).", "quantifier": "for every reachable tree (every history of Set/Remove/... calls), every key k without a space, every value v, every delimiter", "why_tests_cant": "A unit test fixes a handful of keys; the tree shape (where fragments were split) depends on the whole history, and the write path has four different cases (empty root, split, descend, hit).", "anchors": ["radix/trie.go:Set", "radix/trie.go:MustGet", "radix/node.go:insertInternal", "radix/node.go:matchR"]}
{"id": "C02", "title": "A write touches only its own key", "statement": "Set(k, v) leaves the answers of MustGet, GetComment, GetDesc and GetTag unchanged for every other key k2 that has an entry of its own; for a key k2 without one (neither k2 nor k2 plus delimiter) that is not k spelled without its trailing delimiter, MustGet stays the zero value.", "quantifier": "for every reachable tree without route patterns, all keys k and k2 with k2 different from k and k2+delimiter different from k, every value; lookups outside the recursive-up mode", "why_tests_cant": "Splitting a node moves data, flags, comments and tags into a new node; a test only observes the few neighbours it happens to look at.", "anchors": ["radix/node.go:insertInternal", "radix/node.go:split", "radix/trie.go:Set", "radix/trie.go:Query"]}
{"id": "C03", "title": "Last write wins over a whole history", "statement": "After any sequence of Set calls, MustGet(k) is the value of the last Set of k, and the zero value if k (and k plus delimiter) was never set.", "quantifier": "for every finite sequence of (key, value) pairs whose keys are no route patterns (blanks in a key are read as '-'), and every queried key; lookups outside the recursive-up mode", "why_tests_cant": "Quantifies over histories of unbounded length and all interleavings of overlapping keys.", "anchors": ["radix/trie.go:Set", "radix/trie.go:MustGet", "radix/node.go:insertInternal"]}
{"id": "C04", "title": "Get reports found for a key that was just set", "statement": "After Set(k, v), Get(k) returns (v, true).", "quantifier": "for every reachable tree, every key k, every value v", "why_tests_cant": "Depends on whether k is a proper prefix of keys that are already stored, i.e. on insertion order; tests insert parents before children.", "anchors": ["radix/trie.go:Get", "radix/trie.go:Query", "radix/node.go:insertInternal"]}
{"id": "C05", "title": "Has is exact", "statement": "In a trie without route patterns, Has(p) holds exactly when p is empty, or an entry of the tree has full path p or p plus one delimiter; and after a history of Sets alone those full paths are exactly the set keys and the longest common prefixes of two set keys.", "quantifier": "for every reachable tree without route patterns, every delimiter and every query path; lookups outside the recursive-up mode", "why_tests_cant": "The set of tree positions grows with splits that no test enumerates; both directions (no false positive, no false negative) are claimed.", "anchors": ["radix/trie.go:Has", "radix/trie.go:Search", "radix/trie.go:search", "radix/node.go:matchR"]}
{"id": "C06", "title": "Insertion order does not matter", "statement": "Two histories of Sets that assign the same final value to every key give the same answers of MustGet and Has for every path.", "quantifier": "for all pairs of Set histories without route patterns and with equal final assignments, all query paths; lookups outside the recursive-up mode", "why_tests_cant": "There are factorially many orders, each with a different sequence of splits.", "anchors": ["radix/node.go:insertInternal", "radix/node.go:split", "radix/node.go:matchR"]}
{"id": "C07", "title": "Remove deletes exactly one subtree", "statement": "If Remove(p) returns true then afterwards no stored path that starts with the removed entry's full path (p, or p plus delimiter) is found, and every other path answers Get, MustGet and Has as before.", "quantifier": "for every reachable tree without route patterns, every removed path and every queried path; lookups outside the recursive-up mode", "why_tests_cant": "Needs every other key in the tree, not a sample.", "anchors": ["radix/trie.go:Remove", "radix/trie.go:RemoveEx", "radix/node.go:remove"]}
{"id": "C08", "title": "Remove reports what it did and is idempotent", "statement": "Remove(p) returns true exactly when p is non-empty and Has(p) held before; when it returns false nothing changes; after Remove(p) returned, Has(p) is false (p non-empty) and a second Remove(p) returns false and changes nothing.", "quantifier": "for every reachable tree without route patterns and every path; lookups outside the recursive-up mode", "why_tests_cant": "Universal over trees; the boolean and the mutation come from two different functions (search and remove by pointer identity).", "anchors": ["radix/trie.go:RemoveEx", "radix/trie.go:search", "radix/node.go:remove"]}
{"id": "C09", "title": "Walk visits every live key exactly once", "statement": "Walk(\"\") visits every stored entry, visits no entry twice, and the pairs (full path, data) it yields for entries with data are exactly the live assignments.", "quantifier": "for every reachable tree without route patterns; the last part for histories of Sets with ASCII keys", "why_tests_cant": "A duplicate sibling created by a wrong split would be invisible to lookups (first match wins) and only show up on trees a test did not build.", "anchors": ["radix/trie.go:Walk", "radix/node.go:walk", "radix/node.go:matchChildren"]}
{"id": "C10", "title": "Key() is the path the entry was stored under", "statement": "For every entry reached by Walk or Locate, Key() equals the concatenation of the fragments from the root, i.e. the path used to store it.", "quantifier": "for every reachable tree, every entry", "why_tests_cant": "The stored full path is cut by byte count at each split while fragments are cut by rune count; only multi-byte keys with a split below them tell the difference.", "anchors": ["radix/node.go:Key", "radix/node.go:split", "radix/node.go:insertAsLeaf"]}
{"id": "C11", "title": "Prefix views address the same tree", "statement": "For a view v = WithPrefix(p) of a trie with prefix q, every read and write of v at k acts on the underlying tree exactly as an unprefixed trie would at the non-empty parts of q, p, k joined with the delimiter; nested WithPrefix composes; WithPrefixReplaced ignores q.", "quantifier": "for all prefixes, keys, trees and byte-sized delimiters", "why_tests_cant": "All combinations of empty and non-empty prefixes and keys.", "anchors": ["radix/load.go:WithPrefix", "radix/load.go:WithPrefixReplaced", "radix/trie.go:Join", "radix/trie.go:join1"]}
{"id": "C12", "title": "Dup gives an equal and independent store", "statement": "After d = Dup(), every MustGet/Get/Has/Walk answer of d equals that of the original; afterwards any sequence of operations on one leaves the other unchanged.", "quantifier": "for every reachable tree and every later sequence of operations on either copy", "why_tests_cant": "Independence quantifies over all later histories.", "anchors": ["radix/trie.go:Dup", "radix/node.go:Dup"]}
{"id": "C13", "title": "Metadata survives unrelated writes and overwrites", "statement": "Description, comment and tag attached to an entry are kept by every later Set (of the same or another key), and are attached to that entry only.", "quantifier": "for every reachable tree without route patterns, every annotated key, every later sequence of Sets", "why_tests_cant": "Metadata is moved by split and must not be lost or attached to the wrong half.", "anchors": ["radix/node.go:split", "radix/trie.go:SetComment", "radix/trie.go:SetTag", "radix/trie.go:GetComment"]}
{"id": "C14", "title": "SetComment and SetTag touch only the named entry", "statement": "SetComment(p,...)/SetTag(p,...) return true only if Has(p), and then only that entry changes; otherwise nothing happens (documented).", "quantifier": "for every reachable tree and path", "why_tests_cant": "Partial matches depend on which keys share a prefix with p.", "anchors": ["radix/trie.go:SetComment", "radix/trie.go:SetTag"]}
{"id": "C15", "title": "SetEx runs its callback once", "statement": "SetEx(k, v, cb) stores v at k and calls cb exactly once, with path k, the previous data and the entry of k.", "quantifier": "for every reachable tree, key and value", "why_tests_cant": "The number of calls depends on the depth at which the insertion ends.", "anchors": ["radix/trie.go:SetEx", "radix/node.go:insertInternal"]}
{"id": "C16", "title": "Old value reported by Set", "statement": "Set(k, v) returns as old value what MustGet(k) would have returned if an entry has full path k, nil if no stored path is k or extends k, and the zero value if only extensions of k are stored.", "quantifier": "for every reachable tree without route patterns, every key without a space, every value", "why_tests_cant": "Each insertion case returns old data on a different line.", "anchors": ["radix/trie.go:Set", "radix/node.go:insertInternal"]}
{"id": "C17", "title": "Locate, Has, Query, Get agree", "statement": "Locate's found equals Has; Get's found implies Has; Query's err is NotFound exactly when found is false; Get found and branch differ only on branch entries whose fragment does not end in the delimiter.", "quantifier": "for every reachable tree and path", "why_tests_cant": "The same search result is post-processed independently in several methods.", "anchors": ["radix/trie.go:Locate", "radix/trie.go:Query", "radix/trie.go:Has", "radix/trie.go:getNode", "radix/trie.go:getNodeFast"]}
{"id": "C18", "title": "HasPart answers prefix questions", "statement": "On a non-empty trie with ASCII keys and without route patterns, HasPart(p) holds exactly when some stored full path starts with p.", "quantifier": "for every reachable tree and path", "why_tests_cant": "Universal in both directions.", "anchors": ["radix/trie.go:HasPart", "radix/node.go:matchR"]}
{"id": "C19", "title": "GetM(\"\") exports the whole tree", "statement": "Without prefix and options, GetM(\"\") returns exactly the map from full path to data of all leaf entries whose path does not end with the delimiter.", "quantifier": "for every reachable tree", "why_tests_cant": "The result is a map built by side effects during a walk; duplicates or drops depend on the tree shape.", "anchors": ["radix/cvter.go:GetM", "radix/cvter.go:GetR", "radix/node.go:Walk"]}
{"id": "C20", "title": "Un-flattening keys is deterministic", "statement": "splitCompactKeys (used by GetM(WithoutFlattenKeys), To and Save) returns the same nested map for every iteration order of the flat input map, provided no value is itself a map.", "quantifier": "for every flat map and every permutation of its iteration order", "why_tests_cant": "Go randomises map iteration; a test run sees one order.", "anchors": ["radix/cvter.go:splitCompactKeys", "radix/cvter.go:submap"]}
{"id": "C21", "title": "Typed getters: default only when missing", "statement": "GetXxx(p, defaults...) returns the converted stored value when Get(p) is found and ignores defaults; when not found it returns the last default (or zero) together with a NotFound error.", "quantifier": "for every tree, path, default list, and converter", "why_tests_cant": "About ninety generated getters share the shape; tests pass at most one default.", "anchors": ["radix/cvter.go:GetString", "radix/cvter.go:MustString", "radix/cvter.go:GetInt64"]}
{"id": "C22", "title": "Kibi/kilo byte strings", "statement": "FromKibiBytes(n followed by a unit, optionally iB) is n times the unit's power of 1024, and FromKiloBytes likewise with powers of 1000, for every decimal n whose product fits in 64 bits.", "quantifier": "for all naturals n and all units k,m,g,t,p,e in both cases, with every optional suffix", "why_tests_cant": "Infinitely many n; trimming runs several overlapping character sets.", "anchors": ["radix/cvter.go:FromKibiBytes", "radix/cvter.go:fromKibiBytes", "radix/cvter.go:FromKiloBytes", "radix/cvter.go:fromKilobytes"]}
{"id": "C23", "title": "Durations round-trip through text", "statement": "ParseDuration(SmartDurationString(d)) = d for every duration d, including zero, negative and extreme ones, in both fraction modes.", "quantifier": "for all 2^64 durations and both modes", "why_tests_cant": "2^64 inputs; the interesting ones are at carry and buffer boundaries.", "anchors": ["internal/times/dur.go:shortDurFormat", "internal/times/dur.go:ParseDuration", "internal/times/dur.go:fmtFrac", "internal/times/dur.go:fmtInt"]}
{"id": "C24", "title": "Operation sets and their text form", "statement": "Marshalling any single operation to text and unmarshalling it gives the same operation back; Has(op) on a change is true exactly for the operations it contains.", "quantifier": "for all operation values", "why_tests_cant": "Needs every value, including combinations.", "anchors": ["op.go:MarshalText", "op.go:UnmarshalText", "providers/etcd/change.go:Has"]}
{"id": "C25", "title": "Context iteration is complete and sorted", "statement": "After any sequence of WithValue calls, iterating with Next yields every name exactly once in ascending order with its last value, then false; Reset restarts it.", "quantifier": "for every sequence of additions and names", "why_tests_cant": "Iteration is lazily initialised and map ordered.", "anchors": ["internal/ctx/ctx.go:Next", "internal/ctx/ctx.go:Entry", "internal/ctx/ctx.go:Reset", "internal/ctx/ctx.go:WithValues"]}
{"id": "C26", "title": "TTL expiry clears exactly its entry", "statement": "When a TTL set on a leaf entry fires and the entry was not split or removed since, that entry's data and tag become zero and nothing else changes; TTLs on other entries are unaffected; after Close no timer fires.", "quantifier": "for every interleaving of Set/Remove/SetTTL/timer/Close steps", "why_tests_cant": "Schedules: timers fire at any point between other operations.", "anchors": ["radix/trie.go:SetTTL", "radix/trie.go:run", "radix/trie.go:Close", "radix/node.go:SetEmpty"]}
{"id": "C27", "title": "Change handlers fire once per user write", "statement": "Store.Set(k, v) fires exactly one kind of event: every new-handler once if the key was not found and had no previous data, else every change-handler once with the old value; Remove fires every delete-handler once iff it returns true, with the removed data.", "quantifier": "for every store state, key, value and handler list", "why_tests_cant": "All states times all handler lists.", "anchors": ["store.go:Set", "store.go:setKV", "store.go:tryOnSet", "store.go:Remove", "store.go:tryOnDelete"]}
{"id": "C28", "title": "Modified state tracks user writes", "statement": "After Store.Set the entry is marked modified; entries written inside WithinLoading or Load are not; a write never changes another entry's modified mark; Save exports exactly the modified leaf entries.", "quantifier": "for every store state and history", "why_tests_cant": "The flag lives in the node type bits that split copies and clears.", "anchors": ["store.go:setKV", "load.go:WithinLoading", "load.go:trySave", "radix/node.go:SetModified"]}
{"id": "C29", "title": "Merge and Load put every leaf at its dotted path", "statement": "Store.Merge(at, m) / Load of a nested map stores each leaf of m at the delimiter-joined path of at and the map keys leading to it, for every iteration order, when no two leaf paths of m coincide.", "quantifier": "for every nested map (slices included, with and without slice flattening), position and iteration order", "why_tests_cant": "Nesting depth, key shapes and map order are unbounded.", "anchors": ["load.go:loadMap", "load.go:loadMapByValueType", "load.go:privateSetter", "store.go:Merge", "store.go:join"]}
{"id": "C30", "title": "Deflate splits dotted keys without losing leaves", "statement": "cvt.Deflate(m, d) of a map whose keys do not extend each other gives, for every iteration order, a nested map in which looking up the split components of each key of m gives its value, and which has no other leaves.", "quantifier": "for every map with prefix-free keys and every iteration order", "why_tests_cant": "Map iteration order is random.", "anchors": ["internal/cvt/cvt.go:Deflate", "providers/maps/maps.go:New"]}
{"id": "C31", "title": "Normalize removes all map[any]any", "statement": "cvt.Normalize returns a value in which no map with non-string keys is reachable through maps and slices, and which agrees with the input on every path.", "quantifier": "for every nested value", "why_tests_cant": "Unbounded nesting.", "anchors": ["internal/cvt/cvt.go:Normalize", "internal/cvt/cvt.go:normalize"]}
{"id": "C32", "title": "Key normalisation of consul/etcd providers", "statement": "NormalizeKey strips the configured prefix only when followed by a slash, prepends the configured prefix with the delimiter, leaves no slash when a slash-free delimiter is configured, and is injective on keys under the strip prefix that contain no delimiter.", "quantifier": "for all keys and configurations", "why_tests_cant": "String rewriting over all strings.", "anchors": ["providers/consul/consul.go:NormalizeKey", "providers/etcd/etcd.go:NormalizeKey"]}
{"id": "C33", "title": "Route patterns capture path segments", "statement": "Looking up a concrete path on a trie holding a single pattern whose segments are literals or :ident (or a final *rest) is found exactly when the segments correspond, and captures each identifier's segment text (the code deviates, see the partial theorems: a pattern ending in a literal is found only by paths not longer than itself, and paths of equal length can be found although they do not correspond).", "quantifier": "for all patterns and paths", "why_tests_cant": "Infinitely many paths; captures are extracted with index arithmetic.", "anchors": ["radix/node.go:matchR", "radix/node.go:extractor"]}
{"id": "C34", "title": "Lookups terminate", "statement": "Every lookup terminates for every stored key set and every queried path.", "quantifier": "for every reachable tree and path", "why_tests_cant": "Non-termination cannot be observed by a finite test.", "anchors": ["radix/node.go:matchR"]}
{"id": "C35", "title": "Recursive-up lookups", "statement": "A trie in RecursiveUp mode answers as the plain trie whenever the plain lookup finds anything, and otherwise as the plain lookup of the nearest ancestor scope (dropping the second-to-last component repeatedly) that finds anything (a partial match counts as finding; at least one component stays in front of the last).", "quantifier": "for every tree and path", "why_tests_cant": "Unbounded number of components.", "anchors": ["radix/trie.go:search", "radix/load.go:BR"]}
{"id": "C36", "title": "Watched changes are applied", "statement": "Applying a change event with create or write stores every (key, value) it yields; a remove event removes every key it yields; rename/chmod events change nothing.", "quantifier": "for every event, key list and store state (without route patterns)", "why_tests_cant": "Event streams are unbounded.", "anchors": ["load.go:applyChanges", "providers/etcd/change.go:Next", "providers/consul/change.go:Next"]}
{"id": "C37", "title": "Consul change detection", "statement": "For consecutive snapshots of a watched prefix, the change event reports as removed exactly the keys of the previous snapshot missing from the new one when no pair carries the new index, and otherwise yields exactly the pairs whose create or modify index is the new one.", "quantifier": "for all snapshot pairs and indexes", "why_tests_cant": "All histories of snapshots.", "anchors": ["providers/consul/change.go:findOpIndex", "providers/consul/change.go:Next", "providers/consul/change.go:checkOpIndex"]}
{"id": "C38", "title": "Export then load is the identity", "statement": "Loading the nested export GetM(\"\", WithoutFlattenKeys) of a store into an empty store gives a store that answers MustGet identically for every exported key, when no stored key is a component-prefix of another and no value is a map.", "quantifier": "for every reachable tree satisfying the condition, every iteration order", "why_tests_cant": "Composes four recursive functions over unbounded data.", "anchors": ["radix/cvter.go:GetM", "radix/cvter.go:splitCompactKeys", "load.go:loadMap"]}
{"id": "C39", "title": "Joining paths", "statement": "Join drops empty parts and separates the others by exactly one delimiter; it is associative, and splitting the result on the delimiter gives back the non-empty parts when they contain no delimiter.", "quantifier": "for all lists of strings and byte-sized delimiters", "why_tests_cant": "All lists.", "anchors": ["radix/trie.go:Join", "radix/trie.go:join1", "store.go:join"]}
{"id": "C40", "title": "SetEmpty and Update", "statement": "SetEmpty(k) makes MustGet(k) zero and keeps every other key; Update(k, cb) gives cb the entry of k and its previous data, and leaves every other key unchanged.", "quantifier": "for every reachable tree without route patterns and key", "why_tests_cant": "Same case split as insertion for every tree.", "anchors": ["radix/trie.go:SetEmpty", "radix/trie.go:Update"]}
{"id": "C41", "title": "Etcd events", "statement": "An etcd watch event is classified as exactly one of create (a put whose revisions agree), write (a put whose revisions differ) and remove (a delete whose revisions differ), a delete with equal revisions as none of them; iterating it yields exactly one pair, the normalised key and the value.", "quantifier": "for every event and provider configuration", "why_tests_cant": "All combinations of kind, revisions, keys and prefixes.", "anchors": ["providers/etcd/change.go:Set", "providers/etcd/change.go:Next", "providers/etcd/etcd.go:NormalizeKey"]}
{"id": "C42", "title": "Exporting below a path", "statement": "GetR(p) returns exactly the leaf entries at and below p under their full paths; GetM(p, WithKeepPrefix) the same entries nested by the components of their full paths; GetM(p) nests exactly the entries below p by the components of their paths after p.", "quantifier": "for every reachable tree, view, path that has an entry, and filter", "why_tests_cant": "The walk, the split at byte offsets and the nesting have to agree for every tree shape.", "anchors": ["radix/cvter.go:GetM", "radix/cvter.go:GetR", "radix/cvter.go:put", "radix/cvter.go:putKeys"]}
{"id": "C43", "title": "Merging into a trie", "statement": "Trie.Merge(at, m) stores every leaf of the nested map m at the joined path of the prefix, at and the keys leading to it, and leaves every other entry unchanged.", "quantifier": "for every reachable tree, view, position and nested map", "why_tests_cant": "Nested maps and slices are unbounded, and the position is rebuilt at every level.", "anchors": ["radix/trie.go:Merge", "radix/load.go:loadMap", "radix/load.go:loadMapByValueType"]}
{"id": "C44", "title": "Environment variables and flags as keys", "statement": "The environment (and flag) provider accepts exactly the names with the configured prefix; the key of an accepted name is the name lower-cased, stripped, with every underscore that is neither first nor last nor followed by an underscore turned into a dot, below the store prefix; different names get different keys when lower-casing and stripping keep them apart; the table holds for each key the value of the last name with that key, loading makes each key read back as that value, Count is the number of accepted names, Next enumerates the keys, and of several options of one kind the last one counts.", "quantifier": "for every configuration and list of named values", "why_tests_cant": "Names and environments are unbounded.", "anchors": ["providers/env/env.go:prepare", "providers/env/env.go:Next", "providers/flags/flags.go:prepare", "load.go:Load"]}
{"id": "C45", "title": "Reading through a store", "statement": "Store.MustGet(k) is the data of Store.Get(k) if that is reported as found and nil otherwise; after Store.Set(k, v), Store.MustGet(k) returns v, and the answers for every other stored key are unchanged.", "quantifier": "for every reachable store, key and value", "why_tests_cant": "Whether an entry counts as found depends on the shape the whole history gave the tree.", "anchors": ["store.go:MustGet", "store.go:Get", "store.go:Set", "radix/trie.go:Query"]}
{"id": "C46", "title": "Walking from a path", "statement": "Walk(p) visits each entry at or below p exactly once, and nothing else.", "quantifier": "for every reachable tree, view and path", "why_tests_cant": "Where the walk starts depends on the node the lookup stopped in.", "anchors": ["radix/trie.go:Walk", "radix/node.go:walk", "radix/trie.go:search"]}
{"id": "C47", "title": "Changing the delimiter", "statement": "SetDelimiter keeps the stored entries: after it every entry answers MustGet and Has at its full path as before, and Get too if it is a leaf; a key reads the value assigned last; a path that is stored with neither delimiter appended stays absent; one stored with the new delimiter appended becomes readable without it.", "quantifier": "for every reachable tree (through views of any delimiters), delimiter and path without route patterns", "why_tests_cant": "Every history, and every pair of delimiters.", "anchors": ["radix/trie.go:SetDelimiter", "radix/trie.go:search", "radix/node.go:matchR"]}
{"id": "C48", "title": "Loading a map", "statement": "Loading a maps provider (flattened at a delimiter or not) makes every leaf of the map readable at its path and leaves other keys alone.", "quantifier": "for every store, map and delimiter, provided no key extends another, values are plain and, when flattening, no component is empty", "why_tests_cant": "Maps nest without bound, and flattening, normalising and loading have to agree.", "anchors": ["providers/maps/maps.go:New", "providers/maps/maps.go:Read", "load.go:Load", "load.go:loadMap"]}
{"id": "C49", "title": "Loading is exclusive", "statement": "At most one goroutine at a time runs the body of Load on a given store object; a Load that finds another running changes nothing and reports success; the store becomes loadable again when the running one returns.", "quantifier": "for every interleaving of calls, returns and copies of stores by any number of goroutines", "why_tests_cant": "The interleavings of concurrent loads are unbounded and the outcome depends on the scheduler.", "anchors": ["load.go:Load", "load.go:WithinLoading", "store.go:dupS"]}
{"id": "C50", "title": "Dump prints the tree", "statement": "Dump prints one line per entry in Walk order, indented by the number of stored entries that are proper prefixes of it, and shows its key and its data.", "quantifier": "for every reachable tree; the shown key for trees whose keys are ASCII", "why_tests_cant": "The indentation depends on the whole shape of the tree.", "anchors": ["radix/node.go:dumpR", "radix/trie.go:Dump"]}
{"id": "C51", "title": "StartsWith and EndsWith", "statement": "EndsWith(p, r) is true exactly when p is stored and the stored path ends with r; StartsWith(p, r) exactly when p is stored and r is the first character after its longest stored proper prefix.", "quantifier": "for every reachable tree without route patterns, every view, path and rune", "why_tests_cant": "The fragment a node carries depends on which other keys are stored.", "anchors": ["radix/cvter.go:StartsWith", "radix/cvter.go:EndsWith", "radix/node.go:StartsWith", "radix/node.go:EndsWith"]}
{"id": "C52", "title": "Where Load takes its data from", "statement": "Store.Load, given any options in any order: the last provider, codec, prefix and flatten options count. If the provider's Read succeeds, its data is loaded; if Read is not implemented, the bytes of a OnceProvider are decoded by the codec given, else the provider's codec, else as JSON; else the pairs of a StreamProvider are stored. After a successful load every delivered leaf reads back below the load position and other entries keep their values. An error means that nothing was stored; a Writeable is returned exactly when a map was delivered.", "quantifier": "all option lists, providers, codecs, decoders, stores", "why_tests_cant": "the cases are combinations of interfaces, options in any order and errors; tests use one provider with one option order", "anchors": ["load.go:91-132", "load.go:366-462", "load.go:501-545"]}
{"id": "C53", "title": "Save and load back", "statement": "Saving through the Writeable of a load writes nothing if no entry was modified; else it hands the modified entries, encoded by the codec of that load, to its provider and reports errors of either. Loading what was written (with a codec that gives equal maps back) into any store makes every saved entry read as before and keeps the other entries. The same holds for SaveAs with all entries.", "quantifier": "all reachable trees, loaders, codecs and providers, target stores, option lists, paths", "why_tests_cant": "the round trip depends on every key's components and on the iteration order of maps; tests save one small file", "anchors": ["load.go:547-640", "load.go:501-545"]}
{"id": "C54", "title": "Watching files and closing the store", "statement": "Watched changes of a loaded file are reported once each, however often the provider was loaded. After Store.Close no loaded file provider reports changes any more (a goroutine that is already waiting may report one), whatever the interleaving of goroutine starts, events and calls.", "quantifier": "all interleavings of loads, goroutine steps, events and Close, for any number of providers", "why_tests_cant": "the outcome depends on when the goroutine starts and when it notices Close", "anchors": ["load.go:300-311", "store.go:218-224", "providers/file/file.go:117-234"]}
{"id": "C55", "title": "A store follows an etcd database", "statement": "After loading from etcd with watching, and after any sequence of puts and deletes in the database whose events have been handled, every key of the provider's range reads as its current value at the load position, every key that has been deleted is not found, and no other entry has changed. Handlers are told of these changes.", "quantifier": "all stores, load positions, provider configurations, initial databases and sequences of puts and deletes", "why_tests_cant": "the agreement must hold after every history of changes, including re-creations and keys outside of the range", "anchors": ["providers/etcd/etcd.go:156-257", "providers/etcd/change.go:22-51", "load.go:300-359", "load.go:440-444"]}
{"id": "C56", "title": "Sections of a store into a holder (To, GetSectionFrom)", "statement": "To(p, holder) and GetSectionFrom(p, holder) hand the entries of the section p, nested by path components, to the copier; without a holder or without such a section nothing is changed and no error reported.", "quantifier": "all trees, views, paths, options, holders and copiers", "why_tests_cant": "the map depends on the whole content below the section; the fallback branch cannot be reached by any test", "anchors": ["radix/cvter.go:551-576", "radix/cvter.go:491-523", "radix/cvter.go:411-484"]}
{"id": "C57", "title": "A store follows a consul database", "statement": "After Load from a recursive consul provider with watching, and any sequence of puts and deletes in the database whose snapshots have been delivered one per change, each key under the prefix reads as its current value, deleted keys are absent, and unrelated entries are unchanged.", "quantifier": "all trees, views, prefixes, provider configurations, databases, change sequences and first indices", "why_tests_cant": "the change object keeps the previous snapshot and is reused for all changes, so a result depends on the whole history", "anchors": ["providers/consul/consul.go:153-203", "providers/consul/consul.go:275-323", "providers/consul/change.go:12-129", "load.go:313-356"]}
{"id": "C58", "title": "Handlers that call back into the store", "statement": "When handlers call Set, Remove and reading functions of the store themselves, to any depth, the result is that of the same changes made one after the other: a change is made before its handlers are called, handlers see exactly the changes before them, every key ends with the last change that concerns it, and other keys are not affected. All calls return if handlers called for a key only change keys of a smaller rank; a change handler that sets its own key never lets Set return.", "quantifier": "all stores, programs, handler codes (depending on the event and on anything they read), nesting depths", "why_tests_cant": "re-entrance depends on what handlers do, which no test of the library enumerates", "anchors": ["store.go:246-260", "store.go:329-411"]}
{"id": "C59", "title": "Making stores: the options of New and derived stores", "statement": "New with any options gives an empty store whose prefix, delimiter, flatten and watch settings are those of the last option of each kind and whose handlers are all given handlers in order; the order of options of different kinds does not matter. Stores derived by WithPrefix, WithPrefixReplaced, N, R, BR and by Dup keep delimiter, flattening, watching and loading flag; handlers are dropped; derived stores use the same tree, Dup a copy that answers every Get, MustGet and Has like the original.", "quantifier": "all lists of options (any length, any order, repeated), all stores reached by any history, all derivations, all paths", "why_tests_cant": "tests use one or two fixed option lists", "anchors": ["store.go:13-83", "store.go:138-147", "store.go:428-488", "new.go:19", "radix/load.go:15-57"]}
{"id": "C60", "title": "HCL blocks that occur once", "statement": "The HCL codec turns a block that occurs once (a list of one map) into the map itself, through all nested maps: flattening twice is flattening once, afterwards no list of a single map can be reached through maps, every value keeps the place it had except for the dropped index, and after Load every value reached through maps and single blocks can be read at the dotted path of its keys while other entries keep their values.", "quantifier": "all maps the HCL decoder may deliver (any nesting), all stores reached by any history, all prefixes and read views", "why_tests_cant": "tests decode one fixed document", "anchors": ["codecs/hcl/hcl.go:23-57", "codecs/hcl/hcl.go:199-214", "load.go:160-420"]}
{"id": "C61", "title": "What String and MarshalJSON of a store say", "statement": "String distinguishes stores of different prefix, delimiter or recursion mode. MarshalJSON of a store gives a JSON text that reads back as prefix, delimiter and mode.", "quantifier": "all prefixes, delimiters and modes; every classification of printable characters that agrees with ASCII", "why_tests_cant": "tests print one store with prefix of letters and the delimiter '.'", "anchors": ["radix/trie.go:58-69", "radix/trie.go:258-280", "store.go:114-132"]}
{"id": "C62", "title": "Route patterns among other entries", "statement": "Route patterns do not disturb paths that do not meet them: at every path that leaves no stored key at a route marker, Set, MustGet and Query behave as in a store without patterns (read your own write, last write wins, unset paths read as zero). A pattern stored among other keys, patterns and literals alike, answers every path that fits it, with its own value and the captures it gives alone, whatever the order of the Set calls.", "quantifier": "all histories of Set through any views, all sets of keys including patterns, all patterns, all paths, all views and modes", "why_tests_cant": "tests put a few patterns into one fixed trie; the cases that go wrong depend on the order of Set calls and on common beginnings of keys", "anchors": ["radix/node.go:346-468", "radix/node.go:240-335", "radix/trie.go:388-396", "radix/trie.go:702-758"]}
{"id": "C63", "title": "Values after any mixed history", "statement": "Whatever sequence of Set, SetEx, SetNode, SetEmpty, Update, SetComment, SetTag and Remove calls is made through any views of a trie, or of Set, Merge, Load and Remove calls on any stores over one tree, no call fails, and afterwards every path reads as the last call that concerned it left it: the last value written to it, by whichever call, or zero (nil) if it was never written or if it or a path it begins with was removed since. Remove returns true exactly if Has held before.", "quantifier": "all finite sequences of calls, all paths without route patterns, all views with one delimiter and not in recursive-up mode, all maps and providers for Merge and Load, all values", "why_tests_cant": "tests exercise each call on a fresh store; interactions of one call with what others left behind (splits, removed subtrees, entries without data) need unbounded sequences", "anchors": ["radix/trie.go:65-330", "radix/node.go:25-238", "store.go:246-304", "store.go:392-411", "load.go:91-265"]}
{"id": "C64", "title": "The trie stays small", "statement": "A trie that holds n distinct keys has at most 2n nodes: Walk(\"\") visits no more, however long the keys are and in whatever order and how often they were set, and every node without data other than the root has at least two children. Calls that write no value add no node.", "quantifier": "all histories of Set through any views, all keys and values; for the growth bound all histories of C63", "why_tests_cant": "tests look at the dump of one small trie; the bound concerns all key sets and orders", "anchors": ["radix/node.go:205-335", "radix/node.go:582-591", "radix/trie.go:861-876", "radix/trie.go:300-330"]}
{"id": "C65", "title": "A store that watches its file", "statement": "After a file has been loaded with watching enabled, each write to it is reported to the store once (repeated identical events within 5 ms are dropped, other files are ignored, removal ends the watch), and the store then shows what the file says.", "quantifier": "all stores, all sequences of file system events, all file and link names", "why_tests_cant": "needs a running fsnotify watcher and timing; the repository tests only check that the callback runs", "anchors": ["providers/file/file.go:121-234", "providers/file/change.go:9-33", "load.go:300-359"]}
{"id": "C66", "title": "Erasing a key when its time is up", "statement": "The documented recipe - in the callback of SetTTL, call trie.Remove(node.Key()) - erases the key when its timer rings: Has becomes false for it, no other key is touched, and the clearing that follows the callback does no harm even if the key is written again in between. The timer of an entry that has left the trie by any other way never changes an entry again.", "quantifier": "all executions (any interleaving of calls, timers, Close and views) of tries without route patterns, all keys", "why_tests_cant": "the moment between the callback and the clearing is a race; tests cannot enumerate what other goroutines do in it", "anchors": ["radix/trie.go:139-171", "radix/trie.go:212-240", "radix/trie.go:400-406", "radix/trie.go:300-330", "README.md:60-71"]}
{"id": "C67", "title": "Loading depends on the leaves only", "statement": "What a configuration means does not depend on how its keys are written or on the order in which Go iterates over maps: two maps with the same values at the same joined keys (a dotted key is the same as a nested map) give stores that answer every read alike, after Merge and after Load, and loading a source twice is like loading it once.", "quantifier": "all stores, positions, maps, sources, views and paths, without route patterns", "why_tests_cant": "map iteration order is random in Go, a test sees one order per run", "anchors": ["load.go:147-247", "store.go:290-346", "store.go:227-243", "radix/node.go:205-335", "README.md (Split key with delimiter)"]}
{"id": "C68", "title": "Extracting a subset", "statement": "GetM(\"\", WithFilter(f)) takes exactly the entries of GetM(\"\") that f accepts, each under its own key, in the same order: a filter on the prefix of the key (the documented one) gives the keys that begin with it, a filter and its complement split the whole export into two disjoint parts, and the filter node.Modified() gives what was changed.", "quantifier": "all stores reachable by any history, all filters, all prefixes; views without a prefix", "why_tests_cant": "a test shows one filter on one tree; that nothing is lost or doubled by splitting is a statement about all filters", "anchors": ["radix/cvter.go:411-484", "radix/cvter.go:606-610", "load.go:487-489", "README.md (Extract A Subset, Modified State)"]}
{"id": "C69", "title": "Cutting a subset out and pasting it", "statement": "Extracting a part of a store with GetM(\"\", WithFilter(f)) and merging it at a position of the same or another store puts every extracted entry at position.key with its value and leaves all other entries as they were, in whatever order Go iterates over the map; SetPrefix moves the entries of a store below the prefix.", "quantifier": "all source stores, filters, target stores, positions and orders of iteration, without route patterns", "why_tests_cant": "cutting and pasting combines export, iteration order and insertion; a test sees one order on one pair of stores", "anchors": ["radix/cvter.go:411-440", "store.go:227-243", "load.go:147-247", "radix/load.go:35-37", "README.md (Easily Cutting)"]}
{"id": "C70", "title": "Quoted strings can be read back", "statement": "The quoting used in the error messages of the duration parser writes printable ASCII only and loses nothing: a reader that knows the rules gets the original bytes back, so two different inputs never give the same message.", "quantifier": "all byte strings, also those that are not UTF-8", "why_tests_cant": "a table test covers a few bytes; invalid UTF-8 and control bytes in all positions are infinitely many", "anchors": ["internal/times/quote.go:3-46", "internal/times/dur.go:290-365"]}
{"id": "C71", "title": "What Locate reports", "statement": "Locate reports for a path that is stored its entry and found = true. For a path of which only a part matches it returns the shortest entry that extends the path, with partialMatched = true and found = true. Below an entry with nothing below it that entry is returned as a partial match; elsewhere nothing.", "quantifier": "all histories, all views outside of the RecursiveUp mode, all paths, without route patterns", "why_tests_cant": "which node a failed search stops at depends on how the fragments were split, hence on the whole history", "anchors": ["radix/trie.go:503-515", "radix/node.go:470-640", "new.go:88-106", "store.go:418-421"]}
{"id": "C72", "title": "The lock of an entry with a timer", "statement": "From the moment a timer is set on an entry, its value is guarded by a lock: readers (Data, Get, Query), writers (SetData, Set) and the timer that clears it never touch the value at the same time when one of them writes, the program is never aborted by the lock, and there is no deadlock.", "quantifier": "all numbers of goroutines and all interleavings of their steps", "why_tests_cant": "races show up in rare schedules only; no test enumerates interleavings of unboundedly many goroutines", "anchors": ["radix/node.go:53-71", "radix/node.go:100-137", "radix/node.go:247-250", "radix/trie.go:132-137", "radix/trie.go:612-632", "radix/trie.go:703-722"]}
{"id": "C73", "title": "Setting timers and closing from several goroutines", "statement": "SetTTL and Close may be called by any goroutines: no call panics, none waits for ever, all timers of a trie belong to one TTL object, and after a Close none is left running.", "quantifier": "all numbers of goroutines and all interleavings of their steps, including those of the goroutine that accepts the jobs", "why_tests_cant": "the failing schedules need a switch between two adjacent instructions; a stress test does not find them reliably and proves nothing", "anchors": ["radix/trie.go:71-188", "radix/trie.go:212-240"]}
{"id": "C74", "title": "Codec objects can be reused", "statement": "A codec object answers every Marshal and Unmarshal as a fresh one would, whatever it was used for before; it reads back what it wrote, with any options; an error means that the library failed. The table of codecs by suffix is decided by the last Register or Deregister of a suffix.", "quantifier": "all libraries, all documents and maps, all sequences of calls, all options", "why_tests_cant": "a test uses a codec once or twice; hidden state in the object shows only on later calls with other arguments", "anchors": ["codecs/json/json.go:10-50", "codecs/yaml/yaml.go", "codecs/toml/toml.go", "codecs/hjson/hjson.go:37-46", "codecs/nestext/nestext.go:25-52", "codecs/gob/gob.go:15-43", "codecs/all/all.go:15-47"]}
{"id": "C75", "title": "Comments of an hjson document", "statement": "UnmarshalEx of the hjson codec returns the document with its comments: every path of names leads to the same value in the document and in the result, with the comment before it as description and the ones after the key and the value as comment, and the result has nothing else.", "quantifier": "all documents, all paths, both settings of WithFlattenSlice", "why_tests_cant": "documents nest arbitrarily; tests look at one document", "anchors": ["codecs/hjson/hjson.go:9-27", "codecs/hjson/hjson.go:52-109"]}
{"id": "C76", "title": "Parsing times with known layouts", "statement": "SmartParseTime returns what the first known layout that accepts the string says, built-in layouts first and then the added ones in order; it fails exactly if none accepts it; adding layouts never changes the meaning of a string that was accepted before.", "quantifier": "all layouts, strings and parsers, all earlier calls of SmartParseTime and AddKnownTimeFormats", "why_tests_cant": "the list of layouts is global and grows; tests try some strings with one list", "anchors": ["internal/times/time.go:9-19", "internal/times/time.go:60-131"]}
{"id": "C77", "title": "The dummy store is an empty store", "statement": "Every read of a dummy store answers as the same read of a new, empty store, whatever was written to the dummy store.", "quantifier": "all paths, prefixes, modes, value types and defaults", "why_tests_cant": "there are more than a hundred methods; tests check a few with one path", "anchors": ["dummy.go:11-52", "dummy.go:54-331"]}
{"id": "C78", "title": "Joining and searching from several goroutines: the pools", "statement": "However many goroutines join paths and search at the same time, and whatever sync.Pool hands out, forgets or makes anew, each Join gives its own non-empty parts separated by its own delimiter, and each search sees its own word and delimiter from beginning to end. No two goroutines hold the same pooled object, buffers in the pool are empty, and no call waits for another.", "quantifier": "all interleavings of any number of Join, join1, store.join and search calls with any arguments and delimiters; all choices of the pool and the garbage collector", "why_tests_cant": "sync.Pool's choices and interleavings cannot be controlled by tests", "anchors": ["radix/trie.go:290-377", "radix/trie.go:727-774", "store.go:174-216"]}
{"id": "C79", "title": "Keys as Go strings", "statement": "Distinct strings are distinct keys, and with a prefix the key is prefix, delimiter and path: the operations on strings behave as those on texts.", "quantifier": "all strings of bytes, all prefixes and delimiters, all trees reached by any history", "why_tests_cant": "tests use ASCII keys and the delimiters '.' and '/'", "anchors": ["radix/trie.go:340-396", "radix/trie.go:727-757"]}
{"id": "C80", "title": "Writing HCL", "statement": "Marshal of the HCL codec gives a document with an attribute of the same value at the path of every value of the map, and nothing else, or an error.", "quantifier": "all nested maps with values of all Go types, all iteration orders", "why_tests_cant": "tests marshal one fixed map of supported types", "anchors": ["codecs/hcl/hcl.go:59-133", "codecs/hcl/hcl.go:136-179"]}
{"id": "C81", "title": "Consul and etcd providers read what their options say", "statement": "Each setting of a consul or etcd provider is decided by the last option that names it. In the recursive mode `Read` delivers exactly the server's pairs under the position, once each, under their normalised keys and with their text as value (the later pair wins if two keys have the same normal form); in the single mode it delivers exactly the pair of the key, and nothing if there is none; a server error is returned. consul's meta data determine a pair up to its key.", "quantifier": "for all option lists, server contents and answers, key configurations, stores and load options", "why_tests_cant": "The outcome depends on the contents of a remote server and on the combination of eight options; the tests need running servers and read a handful of keys in the default mode.", "anchors": ["providers/consul/consul.go", "providers/etcd/etcd.go"]}
{"id": "C82", "title": "Files under loading and saving", "statement": "A file changes only when an entry is saved through a provider object of that file with write-back enabled (or by others), and then it holds exactly what the codec makes of the exported map; loading, saving nothing, a failing export or codec, and a provider without permission leave all files alone, the last with an error. A provider object keeps its file and permission, and its codec is the one that was given last. What was saved is read back by any provider object of the file with the same codec.", "quantifier": "for all histories of Load, Save, SaveAs and outside changes over any number of provider objects, stores and files", "why_tests_cant": "The outcome depends on the history of calls on shared provider objects (a codec given to one call is used by later ones), and on the state of files outside the program; the tests load one file once.", "anchors": ["providers/file/file.go", "providers/fs/fs.go", "load.go"]}
{"id": "C83", "title": "The cost of a lookup does not depend on the size of the store", "statement": "Let S be the set of runes occurring in the keys ever written and d the delimiter. If none of the keys contains a route pattern, then for every full path w a lookup (Has, Get, MustGet, Query, the typed getters) through a view that does not retry upwards looks at no more than 1 + |S|*|w| tree nodes and compares no more than |w| + (nodes looked at) rune pairs, however many entries the store holds; with upward retry, at most that for each component of w. An insertion of a key descends through at most |key|+1 nodes, reads the first rune of at most |S| children at each and compares at most |key| + (nodes) rune pairs. Whatever the keys are, a lookup looks at each node at most once, in Walk order. With route patterns among the keys the bound fails: a lookup may look at 2^k nodes for a path of 3k+3 runes.", "quantifier": "for all histories of writes and removals, all views, all paths and keys, all alphabets S", "why_tests_cant": "Benchmarks time a handful of trees on one machine; the bound speaks about every tree and every path, and the exponential case with patterns needs keys nobody benchmarks.", "anchors": ["radix/node.go:205-256", "radix/node.go:308-321", "radix/node.go:346-468", "radix/trie.go:731-758", "README.md:14", "README.md:165"]}
{"id": "C84", "title": "Reading while another goroutine sets a key", "statement": "While Set is at work in one goroutine, a lookup in another that falls between two of its assignments is answered as before the Set, or, at the key being set, with the new value. The trie has no lock, so this is decided by the order of the assignments in insertInternal and split.", "quantifier": "for all trees reachable by any history, all keys, values, views and looked-up paths, and every point between two assignments of the insertion", "why_tests_cant": "The states between two assignments last for nanoseconds and are never seen by a sequential test; a race test meets a few of them by chance.", "anchors": ["radix/node.go", "radix/trie.go"]}
{"id": "C85", "title": "The memory behind a trie", "statement": "The slices of children, which append, Remove, split and Dup change in place, always hold what the description of the trie as a tree says: any history of calls on any number of tries and copies, run in memory, leaves the same trees as run on values; a call on one trie leaves the memory of every other alone; what RemoveEx returned stays readable as it was; and how append grows its arrays makes no difference.", "quantifier": "for all histories of Set, SetEx, SetNode, SetEmpty, Update, SetComment, SetTag, Remove, Dup and node methods on any number of tries, all keys and values, and all growth policies of append", "why_tests_cant": "Aliasing of slices shows only for particular lengths and capacities of the arrays; a test sees the capacities that one version of the runtime happens to choose.", "anchors": ["radix/node.go", "radix/trie.go"]}
{"id": "C86", "title": "Changing a trie while walking over it", "statement": "Walk, whose callback gets each node, calls it once for every node that is in the trie and for no other, also when the callback changes the trie.", "quantifier": "for all histories that made the tries, all nodes to start from, and all callbacks, seen as arbitrary changes of the memory", "why_tests_cant": "Whether a sibling is passed over depends on which places of an array a removal has moved while the loop held the old header; tests walk over tries that do not change.", "anchors": ["radix/node.go", "radix/trie.go"]}
{"id": "C87", "title": "Exporting does not change what is stored", "statement": "GetM, GetR and To return new maps and change no map that existed before: every value in the store leads to what it led to, whatever maps the user has stored, and writing into the returned maps does not change the store.", "quantifier": "for all histories, all tries whose values may be references to maps (also shared and nested ones), all views, paths, options and iteration orders", "why_tests_cant": "The tests store numbers and strings; whether an export runs into a stored map depends on which keys lie below others and on the iteration order of a Go map.", "anchors": ["radix/cvter.go"]}
{"id": "C88", "title": "Several goroutines setting keys", "statement": "When several goroutines call Set with different keys on one store at the same time, every call returns, every key then has its value, and all other keys keep theirs.", "quantifier": "for all histories, any number of goroutines, keys and values, all schedules of their accesses to the nodes", "why_tests_cant": "The schedules in which something is lost are a few instructions wide; a test meets them by chance, and the race detector reports accesses, not what becomes of the keys.", "anchors": ["radix/node.go", "radix/trie.go"]}
{"id": "C89", "title": "Looking a key up while other goroutines set keys", "statement": "A Get, Has or Query that runs while other goroutines call Set on the same store returns without a panic, and its answer is the one that the store would have given at some moment while it ran.", "quantifier": "for all histories, keys, values, numbers of writers, and all schedules of the accesses of the reader and the writers to the nodes; the lookup may begin at any moment", "why_tests_cant": "The moments that matter lie between two machine accesses of one lookup; tests hit them by chance, and cannot tell an answer that was right at some moment from one that never was.", "anchors": ["radix/node.go", "radix/trie.go"]}
{"id": "C90", "title": "Looking a key up while other goroutines remove keys", "statement": "A Get, Has or Query that runs while other goroutines call Remove on the same store returns without a panic, and its answer is the one from before or from after the removals; a key that nobody removes is found.", "quantifier": "for all histories, keys, numbers of goroutines, and all schedules of their accesses to the nodes and to the arrays of their children; the lookup may begin at any moment", "why_tests_cant": "Remove shifts the array of children under a running loop; a test meets the few schedules on which it matters by chance, and the loop then just returns not found.", "anchors": ["radix/node.go", "radix/trie.go"]}
{"id": "C91", "title": "Several goroutines removing keys", "statement": "Goroutines that remove keys at the same time leave the store as the removals one after the other would, each reports whether it has removed its key, and none panics.", "quantifier": "for all histories, keys, numbers of goroutines, and all schedules of their accesses to the nodes and to the arrays of their children", "why_tests_cant": "The loss needs one Remove to stop between finding the index and moving the elements; it leaves no trace but a missing key elsewhere.", "anchors": ["radix/node.go", "radix/trie.go"]}
{"id": "C92", "title": "Goroutines with stores of their own", "statement": "Goroutines that call Get, Set and Remove through stores with different prefixes (WithPrefix) on one trie do not disturb one another: each is told what it would be told if it was alone, and none panics.", "quantifier": "for all histories of the trie, all numbers of goroutines, all lists of calls of each, and all schedules of their accesses to nodes and to arrays of children", "why_tests_cant": "A goroutine and its neighbours meet at the nodes above their prefixes for a few instructions only; whether what one leaves in memory can reach the other is a statement about all schedules.", "anchors": ["radix/node.go", "radix/trie.go"]}
{"id": "C93", "title": "Setting keys while others are removed", "statement": "While goroutines call Remove, others can call Set on the same trie: no call panics, every key that is set and not removed is there afterwards with its value, every key that is removed is gone, and all other keys are as before.", "quantifier": "for all histories of the trie, all numbers of goroutines with a call each, and all schedules of their accesses to nodes and to arrays of children", "why_tests_cant": "The goroutines meet at one array of children for a few instructions; a test sees the order that its scheduler happens to choose, and the race detector reports an access, not what becomes of the keys.", "anchors": ["radix/node.go", "radix/trie.go"]}
{"id": "C94", "title": "Following remote databases and closing the store", "statement": "A change of a loaded etcd or consul database is reported to the store once, however often the provider was loaded. After Store.Close the goroutines that follow the database end and report nothing more (except what they are about to report). Cancelling the context given to Load ends them, too.", "quantifier": "for all interleavings of loads, goroutine steps, changes, responses of any size, Close and cancelled contexts", "why_tests_cant": "The outcome depends on when goroutines start and notice, and on an unbounded future; a goroutine that runs in circles without effect is not visible to a test.", "anchors": ["providers/etcd/etcd.go:226-262", "providers/consul/consul.go:270-323", "load.go:300-311", "store.go:218-224"]}
{"id": "C95", "title": "Entries with a timer in a store", "statement": "When an entry set through a store expires, it is gone from the exports of the store and from what Save writes, the handlers are told, and setting it again is reported as a new entry. Store.Close stops the timers of its entries, as the documentation of SetTTL says. Nothing else in the store changes by an expiry.", "quantifier": "for all stores, all interleavings of Set, Remove, SetTTL, Close and the steps of the timers, all entries and values", "why_tests_cant": "The expiry of an entry comes from another goroutine at any time between calls; that nothing else changes is a statement about all keys.", "anchors": ["store.go:218-224", "store.go:246-283", "store.go:329-375", "radix/trie.go:139-171", "radix/cvter.go:342-480"]}
{"id": "C96", "title": "Codecs that load and save files", "statement": "Load(file) of a codec returns what Unmarshal of the contents of the file returns, an error for a file that is missing or not well-formed; Save(file, m) of a codec writes a file from which m can be read, and leaves the file as it was if m cannot be written. Neither leaves a file open.", "quantifier": "for all codecs, encoders, file systems, files, contents and sequences of calls", "why_tests_cant": "Tests use small well-formed files and few calls: open files are collected or do not run out, and the panic needs the one type that tests of Unmarshal do not use.", "anchors": ["codecs/json/json.go:52-65", "codecs/yaml/yaml.go:28-53", "codecs/toml/toml.go:26-41", "codecs/hjson/hjson.go:111-126", "codecs/hcl/hcl.go:182-197", "codecs/nestext/nestext.go:54-69"]}
{"id": "C97", "title": "An export beside goroutines that set keys", "statement": "A goroutine exports the store (GetM(\"\")) while others call Set. The map has every key that was there when the export began, no key twice, and every entry of the map is one that the store had at some moment of the export. An export by itself gives the entries of the store.", "quantifier": "for all reachable tries, all numbers of goroutines, keys, values and all schedules, the export beginning at any moment", "why_tests_cant": "The race detector sees the unsynchronised accesses but not what they lead to; the wrong key needs a switch between two adjacent assignments.", "anchors": ["radix/cvter.go:411-445", "radix/node.go:582-591", "radix/node.go:279-290", "radix/node.go:245-262"]}
{"id": "C98", "title": "Handlers of a store when goroutines set keys at the same time", "statement": "Several goroutines call Set of one store. The handlers are told once of every call that has returned, with its key and its value; the old value they are told is the one that was replaced; and a copy that a handler keeps has the same entries as the store when all calls have returned.", "quantifier": "for all tries, all numbers of goroutines, keys, values and all schedules", "why_tests_cant": "The order in which handlers are called by different goroutines depends on the scheduler; a test sees one of them, and the two assignments between which a switch must come are on adjacent lines.", "anchors": ["store.go:246-260", "store.go:329-346", "store.go:348-375", "radix/node.go:245-255"]}
{"id": "C99", "title": "Sizes whose number is written as in Go", "statement": "FromKibiBytes and FromKiloBytes accept the number in any notation of Go (decimal, hexadecimal, octal, binary), followed by a unit, by a suffix for bytes or by nothing: the result is the number times the power of 1024 or 1000.", "quantifier": "for all numbers, notations, units, suffixes and blanks, if the product fits in 64 bits", "why_tests_cant": "Digits of hexadecimal numbers are also letters of units and suffixes; which of them collide is seen only for all last digits and units together.", "anchors": ["radix/cvter.go:1521", "radix/cvter.go:1541-1565", "radix/cvter.go:1627-1651"]}
{"id": "C100", "title": "Parsing of durations", "statement": "ParseDuration accepts exactly the texts that are a sequence of decimal numbers with units, perhaps behind a sign, or 0; the result is the sum of the parts, and an error if the sum is out of range. MustParseDuration gives zero where ParseDuration gives an error.", "quantifier": "for all texts, numbers of parts, digits before and behind the point, and units", "why_tests_cant": "The code works with 64-bit integers that may wrap around and with floating point for fractions; whether that ever shows depends on all digits of all parts.", "anchors": ["internal/times/dur.go:258", "internal/times/dur.go:271-366", "internal/times/dur.go:373-422", "internal/times/dur.go:424"]}
{"id": "C101", "title": "Integers in the notations of Go", "statement": "SmartParseInt and SmartParseUint accept exactly the integers in the notations of Go (decimal, hexadecimal, octal, binary, with underscores between digits, and with a sign for the former) that are in the range of 64 bits, and give the number. Out of range they report an error and, like the Must variants, give the nearest number in range.", "quantifier": "for all texts and all numbers", "why_tests_cant": "Digits, prefixes, underscores and the limits of the range interact; tests try some of the texts only.", "anchors": ["internal/times/integers.go:8-29"]}
{"id": "C102", "title": "Durations from numbers of seconds", "statement": "DurationFromFloat(f) is the duration of f seconds: the fraction becomes milliseconds and smaller parts. A number of milliseconds gives exactly that many milliseconds.", "quantifier": "for all finite float64 numbers in the range of durations", "why_tests_cant": "The product is rounded as a float64 and then cut off; whether a nanosecond is lost depends on the last bits of the number.", "anchors": ["internal/times/dur.go:244-251"]}
{"id": "C103", "title": "Exporting the trie while goroutines remove keys", "statement": "GetM(\"\") beside goroutines that Remove keys: whatever they remove, the export ends, and all that is in the map are entries of the trie with their values. An entry is in the map if no goroutine removes, on the way to it, the node to go to or a sibling before it (unless the node to go to is the last sibling), as long as the removals themselves do not get into each other's way. An export that begins when all removals have returned gives exactly the entries that are left. Otherwise an entry that nobody removes may be missing from the map.", "quantifier": "for all tries without route patterns, all lists of calls, all schedules, and all moments at which the export begins", "why_tests_cant": "It depends on which element of the slice the loop reads while remove moves the elements; the race detector may report the accesses, but it does not tell which entries get lost.", "anchors": ["radix/cvter.go:411-445", "radix/node.go:582-591", "radix/node.go:183-195", "radix/trie.go:562-585"]}
{"id": "C104", "title": "Delete handlers of a store when goroutines remove keys at the same time", "statement": "Goroutines call Remove of a store with delete handlers. Whatever they remove and however they are scheduled, the handlers are told of every Remove that has returned true, once, with its key, of no other call, and the value is one of the trie's entries. If the goroutines remove from different nodes and spare each other's ways, every Remove returns true, the handlers are told the key with the value it had, and in the end exactly these keys are gone. Otherwise a key may be told twice, or told although it is still there while others go silently, or told with the value of another key.", "quantifier": "for all tries without route patterns, all lists of calls and all schedules", "why_tests_cant": "Two calls of Remove in a test hardly ever meet between the search for the child and the change of the slice, and a test does not see which deletions nobody was told of.", "anchors": ["store.go:392-401", "store.go:377-390", "radix/trie.go:562-585", "radix/node.go:183-195"]}
{"id": "C105", "title": "Lookups while keys are set and removed at the same time", "statement": "Goroutines call Remove, Set for keys that are in the trie, and Query, each once. The lookup of a key that is in the trie, such that no removal gets into the way to it, does not panic and ends, whatever the others do. Its answer is that of one moment between its first step and its end: the answer of the trie before, if at that moment nobody has returned from a Set for the key, or that answer with the value of a Set for the key that has begun. So after a Set has returned, lookups that begin later give its value. When a removal does get into the way, a lookup may miss a key that nobody touches. The lookup of any key, whether it is in the trie or not, does not panic and ends when no removal takes the only child of a node on the way.", "quantifier": "for all tries without route patterns, all lists of calls and all schedules", "why_tests_cant": "The value is written in two steps while a loop of the lookup runs over an array that a third goroutine moves; tests do not choose such schedules.", "anchors": ["radix/trie.go:702-733", "radix/trie.go:388-403", "radix/trie.go:562-585", "radix/node.go:205-256", "radix/node.go:346-468", "radix/node.go:183-195"]}
{"id": "C106", "title": "Exporting the trie while keys are set and removed at the same time", "statement": "Goroutines call Remove, Set for keys that are in the trie, and Query, each once, and another one exports the trie with GetM(\"\"). The export ends, whatever the others do. It has only keys that the trie has, each with a value that is right for a moment of the export: the value before, if at that moment nobody has returned from a Set for the key, or that of a Set that has begun. A key is in the map if no removal gets into the way to it; so is every key that is set, and with the new value if Set has returned before the export begins. An export that begins when all calls have returned is that of the trie after all calls one after the other. The map as a whole is that of one moment.", "quantifier": "for all tries without route patterns, all lists of calls, all schedules, and all moments at which the export begins", "why_tests_cant": "The walk of the export runs over arrays that removals move, and reads values that are being replaced; tests do not choose such schedules.", "anchors": ["radix/cvter.go:411-445", "radix/node.go:582-591", "radix/trie.go:388-403", "radix/trie.go:562-585", "radix/node.go:183-195"]}
{"id": "C107", "title": "Sizes with a decimal point", "statement": "FromKibiBytes and FromKiloBytes accept a number with a decimal point, such as 1.5k or .25 MiB: the result is the number times the power of 1024 or 1000, with the fraction of a byte cut off; a whole number of bytes is exact. Of two numbers with the same unit the greater one has no smaller size.", "quantifier": "for all numbers of digits and a point, units, suffixes and blanks, if the product is at most 2^63", "why_tests_cant": "Two roundings to float64 and one cut; whether a product lands below a whole number depends on the digits, and tests try a few round numbers.", "anchors": ["radix/cvter.go:1541-1565", "radix/cvter.go:1567-1589", "radix/cvter.go:1627-1651", "radix/cvter.go:1653-1674"]}
{"id": "C108", "title": "Handlers of a store when goroutines set and remove keys at the same time", "statement": "Goroutines call Set, Remove and Get of one store with handlers. Whatever the calls are and however they are scheduled, the handlers are told once of every Set that has returned and of every Remove that has returned true, with its key, and of no other call. If each Set has a key of its own that is in the trie, and the removals spare each other's ways and those of the calls of Set, then every call returns, nobody panics, the old values told are those before, and in the end the trie is the one after all calls, one after the other.", "quantifier": "for all tries without route patterns, all lists of calls, all keys without blanks and all schedules", "why_tests_cant": "The lookup of Set, the store into the trie, the removal and the calls of the handlers interleave in more ways than any test can schedule.", "anchors": ["store.go:241-244", "store.go:246-260", "store.go:329-346", "store.go:348-375", "store.go:377-390", "store.go:392-401", "radix/node.go:205-306"]}
{"id": "C109", "title": "New keys set while other keys are removed at the same time", "statement": "Goroutines call Remove and Set at the same time. Each Set has a key of its own, which is in the trie, or is new and adds a child to a node from which no child is removed and to which no other Set adds one; the removals spare each other's ways and those of the calls of Set. Then nobody panics, every call returns, every Remove reports success, and when all have returned the trie is well formed, every key that was set has its value, nothing is left at or below what was removed, and all other paths have what they had.", "quantifier": "for all tries without route patterns, all lists of calls, all keys and all schedules", "why_tests_cant": "The new slice of children is made and assigned in two steps, and removals move children one by one; the orders of these steps cannot be enumerated by a test.", "anchors": ["radix/node.go:183-195", "radix/node.go:205-306", "radix/node.go:309-322", "radix/trie.go:388-398", "radix/trie.go:568-585"]}
{"id": "C110", "title": "Lookups while new keys are set and other keys are removed", "statement": "Goroutines call Remove and Set for keys in the trie and for new keys, as in C109, while another looks up a key. If the key is in the trie and no removal gets into the way to it, the lookup does not panic, ends after finitely many steps of its own, and its answer is right for one moment during the lookup: what was there before, if nobody had returned from a Set for it, or the value of a Set that had begun. If the key is a new one that a goroutine sets, the lookup does not panic and ends, and finds nothing, when that Set had not returned at one moment during the lookup, or the value of that Set. If the Set for the key has returned before the lookup begins, its value is found. If the key is neither there nor set by anybody, the lookup finds nothing.", "quantifier": "for all tries without route patterns, all lists of calls, all keys and all schedules", "why_tests_cant": "The lookup reads the children of a node one by one while leaves are appended to slices and removals move children in others; the orders of these steps cannot be enumerated by a test.", "anchors": ["radix/trie.go:702-733", "radix/trie.go:388-403", "radix/trie.go:562-585", "radix/node.go:205-306", "radix/node.go:309-322", "radix/node.go:346-468", "radix/node.go:183-195"]}
{"id": "C111", "title": "Exporting the trie while new keys are set and other keys are removed", "statement": "Goroutines call Remove and Set for keys in the trie and for new keys, as in C109, and another one exports the trie with GetM(\"\"). The export ends, whatever the others do. It has only keys that are in the trie, each with a value that is right for a moment of the export, and new keys whose Set has begun, with the value of that Set. A key of the trie is in the map if no removal gets into the way to it. A key whose Set has returned before the export begins is in the map, new or not, with that value and no other; a new key whose Set has not begun when the export ends is not. Nothing is in the map at or below a key whose Remove has returned before the export begins. An export that begins when all calls have returned has exactly the entries of the trie that the calls leave. The map as a whole is that of one moment.", "quantifier": "for all tries without route patterns, all lists of calls, all schedules, and all moments at which the export begins", "why_tests_cant": "The walk reads the slices of children while leaves are appended to some and removals move children in others; the orders of these steps cannot be enumerated by a test.", "anchors": ["radix/node.go:325-484", "radix/node.go:183-195", "radix/trie.go:388-398", "radix/trie.go:429-470", "radix/cvter.go:411-445", "radix/node.go:582-591"]}
{"id": "C112", "title": "Handlers of a store when new keys are set while other keys are removed", "statement": "Goroutines call Set, Remove and Get of one store with handlers, each once. The keys that are set are in the trie, or new as in C109: each adds a child to a node of its own, from which no child is removed. Whatever the scheduler does, nobody panics, every call returns, and the handlers are told of each call once, what they would be told if it were made alone: of a new key that it is created, with its value; of an old one that it has changed, with the value before; of a Remove the value of the node that is removed. When all have returned, the trie has the keys that were set with their values, nothing at or below the nodes that were removed, and everything else as before. The same holds for any keys.", "quantifier": "for all tries without route patterns, all lists of calls, all keys without blanks and all schedules", "why_tests_cant": "Set of the store is a lookup, an insertion and a call of the handlers; each can be interrupted by steps of any number of other goroutines.", "anchors": ["store.go:239-260", "store.go:329-375", "store.go:392-401", "radix/trie.go:388-398", "radix/trie.go:702-758", "radix/node.go:183-322", "radix/node.go:346-468"]}
{"id": "C113", "title": "Dup while keys are set", "statement": "While goroutines call Set for keys that are in a trie, each for a key of its own, and look up keys, another goroutine makes a copy of the trie with Dup. Whatever the scheduler does, the copy is complete after finitely many steps of its own; it is a well-formed trie that shares no node with the original and has exactly its keys. A key that nobody sets has in the copy what it has in the original; a key whose Set returned before Dup was called has the new value; any other has a value and a flag (whether it has a value) that were right at a moment of the copying. A copy that begins when all calls have returned is the copy of the trie that the calls leave one after the other. Value and flag of a key are from the same moment, and all this holds beside Remove, too.", "quantifier": "for all tries without route patterns, all lists of calls, all moments at which the copying begins, and all schedules", "why_tests_cant": "Dup reads the flags of a node when it comes to it and its data when it leaves it, after all that is below; a copy of a large trie can be interrupted at any node by any number of other goroutines.", "anchors": ["radix/node.go:559-579", "radix/trie.go:855-857", "radix/node.go:101-108", "radix/node.go:183-195", "radix/node.go:205-306", "store.go:428-441"]}
{"id": "C114", "title": "Dup while new keys are set", "statement": "While goroutines call Set for keys that are in a trie and for new keys (as in C109), and look up keys, another goroutine makes a copy of the trie with Dup. Whatever the scheduler does, the copy is complete after finitely many steps of its own; it is a well-formed trie that shares no node with the original and has all its keys. A key that nobody sets has in the copy what it has in the original, and is absent if it is absent there; a key whose Set returned before Dup was called, new or not, is in the copy as that Set stores it; any other key of the original has a value and a flag that were right at a moment of the copying; and any new key in the copy is one whose Set had begun, with its value. A copy that begins when all calls, also of Remove, have returned is the copy of the trie that is then in memory. The copy is the trie of one moment, and all this holds for any new key.", "quantifier": "for all tries without route patterns, all lists of calls, all moments at which the copying begins, and all schedules", "why_tests_cant": "Dup takes the slice of children of a node once and then runs over it, while Set appends a new leaf to it; whether the leaf is in the copy depends on the schedule, and what else is in the copy is from other moments.", "anchors": ["radix/node.go:559-579", "radix/trie.go:855-857", "radix/node.go:205-306", "store.go:428-441"]}
{"id": "C115", "title": "Dup while keys are set, added and removed", "statement": "While goroutines call Remove, Set for keys that are in a trie and for new keys (as in C109), and look up keys, another goroutine makes a copy of the trie with Dup. Whatever the scheduler does, the copy is complete after finitely many steps of its own, no two of its nodes are the same, and none is a node of the original. A key of the trie that no removal gets into the way of is in the copy. A key that nobody sets is in the copy only if it is in the trie, and everything that is under it in the copy is as in the trie, but for description, comment and tag. A key whose Set returned before Dup was called, new or not, is in the copy, and everything that is under it there is as that Set stores it. Nothing is in the copy at or below a key whose Remove returned before Dup was called. Everything else in the copy has a value and a flag that were right at a moment of the copying, and a new key is in it only if its Set had begun. The copy is a well-formed trie with each key once, and a key that nobody removes is in it.", "quantifier": "for all tries without route patterns, all lists of calls, all moments at which the copying begins, and all schedules", "why_tests_cant": "Remove shifts the slice of children of a node in place while Dup runs over it with the old length, and Set appends to it; what a copy has from one slice depends on how the steps of all goroutines interleave.", "anchors": ["radix/node.go:559-579", "radix/trie.go:855-857", "radix/node.go:205-306", "radix/node.go:183-199", "store.go:428-441"]}
{"id": "C116", "title": "Walk while keys are set, added and removed", "statement": "While goroutines call Remove, Set for keys that are in a trie and for new keys (as in C109), and look up keys, another goroutine calls Walk(\"\", cb). Whatever the scheduler does, the walk ends after finitely many steps of its own. Every call of cb is about a node of the trie, with the path and the fragment that it has, or about a new key whose Set has begun, with that key as path and an end of it as fragment. cb is called for every node of the trie that no removal gets into the way of, and for every key whose Set returned before Walk was called, new or not. It is not called for anything at or below a key whose Remove returned before Walk was called, nor for a new key whose Set has not begun when the walk ends. It is called at most once for each node, and at least once for each that nobody removes. If nobody calls Remove, the calls for the nodes of the trie are those of a walk that is alone, in the same order, and no node is visited twice. The same holds of Walk of a node of the trie, for the nodes at and below it. A walk that begins when all calls of Set and Remove have returned visits the trie that they leave: every key that was set, nothing that was removed, and all else as it was, in order.", "quantifier": "for all tries without route patterns, all lists of calls, all moments at which the walk begins, and all schedules", "why_tests_cant": "Remove shifts the slice of children of a node in place while the walk runs over it with the old length, and Set appends to it; which nodes the callback gets depends on how the steps of all goroutines interleave.", "anchors": ["radix/node.go:582-591", "radix/trie.go:861-877", "radix/node.go:205-306", "radix/node.go:183-199"]}
{"id": "C117", "title": "Dump while keys are set and added", "statement": "While goroutines call Set for keys that are in a trie and for new keys (as in C109), and look up keys, another goroutine calls Dump. Whatever the scheduler does, Dump returns after finitely many steps of its own, and its text is that of Dump for a well-formed trie: one that has every key of the trie, with a value that the key had at a moment of the dumping (and the mark for a value of that or an earlier moment), all else about it as in the trie; every new key whose Set returned before Dump was called, as that Set stores it; and otherwise only new keys whose Set has begun. A key that nobody sets is shown as it is. If all calls of Set, and of Remove, have returned when Dump is called, the text is that of the trie that comes of them (C109). The text is that of the trie at some moment, and all this holds beside Remove, too.", "quantifier": "for all tries without route patterns, all formats of values, with and without colours, all lists of calls, all moments at which the dump begins, and all schedules", "why_tests_cant": "the text is made line by line while Set writes the mark and the value of a node in separate steps and appends to slices of children that the dump iterates over; tests see few of the schedules.", "anchors": ["radix/node.go:472-556", "radix/trie.go:851-852", "radix/node.go:205-306"]}
{"id": "C118", "title": "Dump while keys are set, added and removed", "statement": "While goroutines call Remove, Set for keys that are in a trie and for new keys (as in C109), and look up keys, another goroutine calls Dump. Whatever the scheduler does, Dump returns after finitely many steps of its own, and its text consists of whole lines, each of them that of Dump for a node of the trie, with a value that its key had at a moment of the dumping (and the mark for a value of that or an earlier moment) and all else as in the trie, or for a new key whose Set had begun, as that Set stores it; each is indented as is right for the level of the node. There is a line for every node that no removal gets into the way of. A key whose Set returned before Dump was called, new or not, has a line, with the value of that Set; what is said about a key that nobody sets is as in the trie; a new key whose Set has not begun when Dump returns has no line; and there is no line about anything at or below a key whose Remove returned before Dump was called. There is a line for every key that nobody removes, and no key has two.", "quantifier": "for all tries without route patterns, all formats of values, with and without colours, all lists of calls, all moments at which the dump begins, and all schedules", "why_tests_cant": "Dump takes no lock, and Remove shifts the slice of children that Dump runs over; a test sees the schedules that happen to come about.", "anchors": ["radix/node.go:472-556", "radix/trie.go:851-852", "radix/node.go:205-306", "radix/node.go:183-199"]}
