# Formal model of hedzr/store

The Go code in `/repo` was read as text. Nothing of it was built or run.
The model is written in Lean 4 under `lean/Verif`; `properties.jsonl` states the properties in API terms,
`MANIFEST.json` names the theorems, `seeded/LOG.jsonl` records edits of the model and the theorems they break.

## Layout

* `Verif/Model/*`  – the model, one definition per Go function, each citing file and lines.
* `Verif/Spec/*`   – small specifications that do not use the model's helpers.
* `Verif/Lemmas/*` – helper lemmas.
* `Verif/Props/*`  – the property theorems (the ones named in `MANIFEST.json`), with
  concrete `example`s beside them showing that the hypotheses can be met.

Naming: `Cnn_*` is a theorem of property Cnn; `*_partial` covers a part of the property (the note says which);
`*_fails`, `*_panics` and the like are negations: a concrete execution of the model on which the wished-for claim is false.

## How the Go constructs are modelled

| Go | model |
|---|---|
| `string` used as a key, `[]rune` | `List Char` (valid UTF-8 only) |
| `pathS` (byte string cut by byte count) | `List UInt8`, UTF-8 encoding of the key |
| `*nodeS[T]` | tree value; pointer identity is an explicit `id : Nat`, allocated from a counter |
| `nType` bits | three booleans: leaf, data, modified |
| `T`, `any` | type parameter `α` with a default value (Go's zero value); for the store `Any α κ`: nil, opaque atoms, maps, slices, package values |
| a call that panics / never returns | `Except.error Stop.panic` / `Except.error Stop.hang` |
| `map[K]V` iterated in random order | list of pairs; theorems quantify over all permutations |
| views (`WithPrefix`) | several (prefix, delimiter, mode) triples over one shared tree |
| goroutines and timers (TTL) | state machine, one step per critical section, any interleaving |
| `goto retriever` loop | fuel; `C34_hang_is_divergence` says that running out of fuel means that the loop never ends |
| callbacks, handlers, converters, lower-casing | arbitrary functions, or opaque names whose invocations are recorded |
| `float64` | rationals with a correctly rounding function |
| `uint64` | naturals below 2^64 with explicit wrap-around |

Reachable states: `Reach P t` holds of every tree obtained from the empty trie by any sequence of `Set`, `SetEx`, `SetNode`,
`SetEmpty`, `Update`, `SetComment`, `SetTag`, `Remove`, … through any views, provided every inserted full path satisfies `P`
(mostly `NoRoute d`: no component starts with ':' or '*').


## Per property: what is modelled and how it is proved

### C01 Read your own write (proved)

`View.set`, `View.mustGet` over the radix tree (insertInternal, split, matchR). Refinement: the tree denotes a finite map from full path to entry, `Set` is a point update plus at most one empty branch entry (induction over the insertion recursion).

For keys without spaces and trees without route patterns; C01_space_fails and C01_route_fails show that both conditions are needed.

Theorems: `C01_read_own_write`, `C01_read_own_write_same`, `C01_space_fails`, `C01_route_fails`.

### C02 A write touches only its own key (proved)

The same point-update characterisation, read at every other path.

C02_frame_entry and C02_frame_absent; C02_alias_fails and C02_found_fails show why the excluded cases are excluded.

Theorems: `C02_frame_entry`, `C02_frame_absent`, `C02_alias_fails`, `C02_found_fails`.

### C03 Last write wins over a whole history (proved)

Induction over histories of `Set` through arbitrary views: the tree denotes the last write (`Denotes`).

Theorems: `C03_last_write_wins`, `C03_never_written`.

### C04 Get reports found for a key that was just set (partial)

The found flag is the leaf bit (or a trailing delimiter) of the entry; exact condition from the insertion recursion, both per step and over histories.

The code violates the claim when the key is a proper prefix of a stored key (C04_found_fails); the partial theorems cover the other cases.

Theorems: `C04_found_fails`, `C04_found_partial`, `C04_found_history_partial`.

### C05 Has is exact (proved)

Exact description of the match function on trees without route patterns (induction on the tree), then the domain of the denoted map.

C05_doc_fails: branch positions created by splits also answer Has.

Theorems: `C05_has_exact`, `C05_has_total`, `C05_paths`, `C05_has_sets`, `C05_doc_fails`.

### C06 Insertion order does not matter (proved)

Two histories with equal last-write maps denote maps with equal domain and data.

Theorems: `C06_order_irrelevant`.

### C07 Remove deletes exactly one subtree (proved)

Removal by pointer identity (`removeChild` of the parent) refines removal of all entries whose path extends the removed one.

C07_removes_siblings: removal is by characters, so Remove("app") also removes "apple".

Theorems: `C07_remove_subtree`, `C07_removes_siblings`.

### C08 Remove reports what it did and is idempotent (proved)

As C07; the removed node is the node found by the lookup.

Theorems: `C08_remove_iff_has`, `C08_remove_idempotent`, `C08_removed_node`.

### C09 Walk visits every live key exactly once (proved)

The walk lists the nodes in preorder; entries of a well-formed tree have distinct paths (invariant of all reachable trees).

Theorems: `C09_walk_exact`, `C09_walk_live`.

### C10 Key() is the path the entry was stored under (partial)

Invariant relating the byte path `pathS` to the concatenated rune fragments; false after a split of a non-ASCII key because Go cuts bytes by a rune count.

Holds for ASCII keys and for leaf entries in any script; C10_key_fails is a branch entry below which a non-ASCII key was split.

Theorems: `C10_key_ascii`, `C10_key_leaf`, `C10_key_fails`.

### C100 Parsing of durations (partial)

`Model/Dur.lean`: every operation of float64 is `f64`, rounding to 53 bits over ℚ. `Part` (`Props/DurParse.lean`) is the grammar; `step_inv` and `loop_inv` read the parts back from an accepted text. `Lemmas/DurFloat.lean` bounds the rounding errors: the scale after j digits is off by a factor of at most (1±2^-53)^j, which is harmless because many digits make the fraction small.

Proved: nothing else is accepted (C100_grammar); the result is the exact sum, and an error exactly if it is out of range, if no fraction has more digits than the unit has zeros and no part is exactly 2^63 nanoseconds (C100_sum_partial, C100_must); with any fractions, a text safely in range is accepted and the result is at most two nanoseconds per part off the exact rational number (C100_near). False otherwise: a part of 2^63 nanoseconds, twice, is accepted and gives 0 (C100_wrap_fails), and fractions with many digits are not rounded down (C100_float_fails). The arithmetic of float64 is rounding to 53 bits over the rationals; the exponent is unbounded.

Theorems: `Dur.C100_near`, `Dur.C100_sum_partial`, `Dur.C100_grammar`, `Dur.C100_wrap_fails`, `Dur.C100_float_fails`, `Dur.C100_must`.

### C101 Integers in the notations of Go (proved)

`Model/Integers.lean` over `parseUint` of `Model/Bytes.lean`. The notation is an inductive predicate (`Spells`, `Number` in `Props/Integers.lean`), read off the language specification of Go; both directions by induction over the digits, the underscores by the state of `underscoreOK`.

C101_uint, C101_int: equivalences for all texts. C101_uint_range, C101_int_range: out of range. C101_unique: the notation is unambiguous. strconv.ParseInt and ParseUint are modelled from their source. A text that is no number gives an error, but the Must variants may give a limit for it (see the example: too many digits and then something else).

Theorems: `Bytes.C101_uint`, `Bytes.C101_uint_range`, `Bytes.C101_int`, `Bytes.C101_int_range`, `Bytes.C101_unique`.

### C102 Durations from numbers of seconds (partial)

`fromFloat` in `Model/Dur.lean`, with the arithmetic of C100; the bounds are those of `Lemmas/DurFloat.lean`.

C102_near: the result is off by less than one nanosecond and one part in 2^53, always; C102_days: so by less than two nanoseconds up to 104 days. C102_exact: whole seconds and binary fractions down to 1/512 are exact. The last sentence is false: 1.001 gives 1.000999999s (C102_milli_fails). Out of range the language does not define the result. The arithmetic of float64 is rounding to 53 bits over the rationals.

Theorems: `Dur.C102_near`, `Dur.C102_days`, `Dur.C102_exact`, `Dur.C102_milli_fails`.

### C103 Exporting the trie while goroutines remove keys (partial)

`Model/RaceSweep.lean`: the walk of C97 over the memory of C90, where a loop reads the length of the slice once and an element of the array at every turn. `Lemmas/RaceSweep.lean`: what a walk puts into the map, for any family of memories that show at every node the entries and some of the children of the tree (`EShows`, `ESure`, by induction over the tree). `Lemmas/RaceSane.lean`: any removals, also those that collide, leave memories of this kind (`sane_step`). `C103_kept` uses the memories of C91 (`mems`). `Lemmas/RaceSkip.lean` drives the walk to the loop in question, lets the removal run, and follows the walk to its end.

C103_sound: any removals, even those that collide. C103_kept, C103_after: removals from different nodes that spare each other's ways. C103_missed_fails: the condition on the siblings is needed; a schedule for every removal before a node that is not the last. Sequentially consistent memory; no options and no prefix.

Theorems: `Prune.C103_sound`, `Prune.C103_kept`, `Prune.C103_after`, `Prune.C103_missed_fails`.

### C104 Delete handlers of a store when goroutines remove keys at the same time (partial)

`Model/RaceTold.lean`: `Remove` of the store on top of the programs of C90: the node that the search has found is remembered, its data are read when `RemoveEx` has returned, then the handlers are called. `Lemmas/RaceTold.lean`: the trie below runs as in C91 (`Heard.base`), the data of the nodes never change (`run_core`), and the node is the one that the search has found (`Fine`), for an arbitrary condition on these nodes; it is instantiated with the nodes of the tree (`picks_in`, from `SaneW`) and with the planned node (from `Inv`).

C104_once: without conditions on the calls. C104_told, C104_all: removals from different nodes that spare each other's ways (as in C91). C104_stray_fails: for all pairs of removals from one node, the first at or before the second, that is not the last, there is a schedule on which the handlers are told wrongly. C104_value_fails: a key is told with the value of another. Sequentially consistent memory; a call of the handlers is one step.

Theorems: `Prune.C104_once`, `Prune.C104_told`, `Prune.C104_all`, `Prune.C104_stray_fails`, `Prune.C104_value_fails`.

### C105 Lookups while keys are set and removed at the same time (partial)

The program of C93 (`Model/RaceParts.lean`). `Lemmas/RaceMixGet.lean`: a search does not read the values (`hunts_over`), so its way is that of C90 (`Leads`) also while values change; `LookSt` follows the lookup through the reads at its node, and `Mixed.core` says what these see, given how far the calls of `Set` have come (C93). For keys that may be missed (`C105_safe`) the way ends in a node or in a miss (`Stops`).

C105_answer and C105_after: under the conditions of C93 on the calls of Set and Remove, for keys to which the way is left alone in the sense of C90. C105_miss_fails: without the latter a key that nobody touches is not found, although the Set beside it works. C105_safe: any key, if no removal takes the only child of a node on the way: it may be missed, but nothing else happens. Sequentially consistent memory.

Theorems: `Parts.C105_answer`, `Parts.C105_safe`, `Parts.C105_after`, `Parts.C105_miss_fails`.

### C106 Exporting the trie while keys are set and removed at the same time (partial)

`Model/RaceMixExport.lean`: the export of C103 beside the programs of C93. `Lemmas/RaceMixExport.lean`: the walk of C103 for memories whose values change (`VShows`, `VAdds`); the states of the others are the beginnings of the schedule, so that a value in the map comes with the moment at which it was read.

C106_sound, C106_kept, C106_set, C106_after: under the conditions of C93 on the calls of Set and Remove. The last sentence is false: C106_snapshot_fails, a map that contains a removed key together with a value that was set after the removal. That keys may be missed when a removal gets into the way: C103_missed_fails. Sequentially consistent memory; no options and no prefix; reading a string or a slice is one step.

Theorems: `Parts.C106_sound`, `Parts.C106_kept`, `Parts.C106_set`, `Parts.C106_after`, `Parts.C106_snapshot_fails`.

### C107 Sizes with a decimal point (partial)

`Model/BytesPoint.lean`: the branch of C99's functions with `strconv.ParseFloat`, over the float64 arithmetic of C100. `Point` reads the number off the text digit by digit; `f64_two` (powers of two do not change the rounding), `f64_form` and `f64_mono` give exactness and order, the bounds are those of `Lemmas/DurFloat.lean`.

C107_kibi_near, C107_kilo_near, C107_bare: less than a byte off, but for the 53 bits of a float64. C107_kibi_whole: whole numbers of bytes are exact with units of 1024. With units of 1000 they are exact or one less (C107_kilo_whole_partial), and exact for eighths (C107_kilo_eighths). C107_mono: the order. False: 1.001K is 1000 bytes (C107_kilo_fails), and a number just below one kibibyte is 1024 bytes (C107_down_fails). Signs, exponents and hexadecimal fractions are left open (the argument `other`), and so are products out of the range of uint64 (`oob`).

Theorems: `Bytes.C107_kibi_near`, `Bytes.C107_kibi_whole`, `Bytes.C107_kilo_near`, `Bytes.C107_kilo_whole_partial`, `Bytes.C107_kilo_eighths`, `Bytes.C107_bare`, `Bytes.C107_mono`, `Bytes.C107_kilo_fails`, `Bytes.C107_down_fails`.

### C108 Handlers of a store when goroutines set and remove keys at the same time (partial)

`Model/RaceAll.lean`: the programs of C98 and C104 on the memory of C93. `C108_once` by an invariant of this program alone (`Says`, `Lemmas/RaceAll.lean`). For the rest every schedule of the store is followed by one of the trie (`Twin`, `Lemmas/RaceTwin.lean`), in which each call has a second goroutine for the lookup of its `Set` (`twice`); C93 and C105 speak about that one, and `Plan` collects what is needed of them: what the lookup finds, the value that is replaced, the node that is removed.

C108_once: without conditions on the calls. C108_told, C108_all: under the conditions of C93 on the calls of Set and Remove. False for a Set and a Remove of one key: they can be told in the wrong order (C108_order_fails), the same old value can be told as removed and as replaced (C108_twice_fails), and a new key can be told as changed, without an old value (C108_new_fails). New keys are in C98 (among calls of Set) and in C112 (beside Remove). The flag modified is left out; calling the handlers is one step. Sequentially consistent memory.

Theorems: `Parts.C108_once`, `Parts.C108_told`, `Parts.C108_all`, `Parts.C108_order_fails`, `Parts.C108_twice_fails`, `Parts.C108_new_fails`.

### C109 New keys set while other keys are removed at the same time (partial)

The programs and the memory of C93. `Comes` (`Lemmas/RaceComes.lean`) says that a goroutine comes to a place, whatever the others do to the memory within a given bound; it is proved for the search of `Remove` and the way of `Set`. The bound (`Like`, `Lemmas/RaceFresh.lean`) is: the memory of the removals of C91, with other cores and with leaves added to the nodes to which `Set` adds them. `Blend` says where every goroutine stands and what is in memory after a schedule; `Blend.tick` is its step. At the end the memory holds the tree that the removals leave, with the leaves (`deck`, `Lemmas/RaceDeck.lean`).

Proved for new keys that add a child to a node; not for those that split a path. Without the conditions it is false: C88_lost_fails (two new children of one node), C93_back_fails and C93_lost_fails (a child is added to the node from which one is removed), C93_panic_fails and C93_wipe_fails (a path is split). The loops read the elements of the slice when they get to them; sequentially consistent memory; append makes a new array.

Theorems: `Parts.C109_new`.

### C11 Prefix views address the same tree (proved)

List algebra of joining; operations through a view equal the operations of the unprefixed view at the joined path.

Delimiters below 128; C39_rune_delim_fails for others.

Theorems: `C11_withPrefix`, `C11_nested`, `C11_shift`, `C11_replaced`, `C11_reads`, `C11_writes`, `C11_views_share`.

### C110 Lookups while new keys are set and other keys are removed (partial)

The programs, the memory and the invariant (`Blend`) of C109. For a key in the trie, the search comes to its node (`comes_look`, `Lemmas/RaceLooking.lean`); `Looking` says where the goroutine with the lookup stands. For a new key (`Lemmas/RaceLeafGet.lean`), `Tells` says of a memory which leaves have been added; the search comes to the leaf or ends without a node (`down_way`), it does not find the leaf while it has not been added, and it finds it if it had been added when the search began (`comes_leafy`). For all other keys (`Lemmas/RaceFreshMiss.lean`), the search ends at the node of the key or without one (`down_safe`, by induction on how the search goes in the tree).

C110_answer, C110_after: keys in the trie to which the way is left alone. C110_new, C110_found: new keys. C110_safe: any other key, if no removal takes the only child of a node on the way: it may be missed, but nothing else happens. All with the conditions of C109 on the calls of Set and Remove. The loops read the elements of the slice when they get to them; sequentially consistent memory; append makes a new array.

Theorems: `Parts.C110_answer`, `Parts.C110_safe`, `Parts.C110_after`, `Parts.C110_new`, `Parts.C110_found`.

### C111 Exporting the trie while new keys are set and other keys are removed (partial)

The programs and the invariant of C109, the export of C106. The walk of C106 is proved for memories in which some nodes come into being only during the walk (`VShows`, `VAdds` with `L`); the tree that it walks is the old one with all leaves that calls of `Set` ever add (`full`, `Lemmas/RaceFreshExport.lean`), and `Blend` says which of them are there (`Made`).

C111_sound, C111_kept, C111_set, C111_unset, C111_removed, C111_after: under the conditions of C109 on the calls of Set and Remove. The last sentence is false: C111_snapshot_fails, a map without a new key and with a value that was set after that key. Sequentially consistent memory; append makes a new array; no options and no prefix; reading a string or a slice is one step.

Theorems: `Parts.C111_sound`, `Parts.C111_kept`, `Parts.C111_set`, `Parts.C111_removed`, `Parts.C111_unset`, `Parts.C111_after`, `Parts.C111_snapshot_fails`.

### C112 Handlers of a store when new keys are set while other keys are removed (partial)

The program of C108, the invariant of C109. `Twin` (`Lemmas/RaceTwin.lean`) follows a schedule of the store by one of the trie, in which the lookup of each `Set` is a goroutine of its own that has ended before the `Set` begins; `fresh_plan` (`Props/RaceFreshAll.lean`) is what C109 and C110 say about the latter: a lookup for a new key finds nothing as long as its `Set` has not begun, and that `Set` comes to its end without a value that is replaced.

C112_told, C112_all: under the conditions of C109 on the calls of Set and Remove (C108_once holds for any calls). The last sentence is false: handlers are told that a key is new that is not in the trie, because a node above it was removed (C112_below_fails) or because another Set added a child to the same node (C112_beside_fails). The flag modified is left out; calling the handlers is one step. Sequentially consistent memory.

Theorems: `Parts.C112_told`, `Parts.C112_all`, `Parts.C112_below_fails`, `Parts.C112_beside_fails`.

### C113 Dup while keys are set (partial)

`Model/RaceDup.lean`: `Dup` with a program counter and the calls that have not returned as a stack, beside the programs of C93. `Lemmas/RaceDup.lean`: for any family of memories that show the shape of the tree (`DShows`), whatever the others do, the copying ends with the sequential copy of the tree with other cores (`Node.recore`), each of which was seen at two moments, the later for the data (`Seen`, `dleads_walk`, by induction over the tree). `Mixed` (C93) says what is at a node at each moment.

C113_copy, C113_other, C113_set, C113_after: for calls of Set for keys at which there is a node (the code makes nodes for new keys in several steps; of these C113 does not speak). The last sentence is false: the copy can have a key without the flag, but with the new value (C113_flag_fails); and beside Remove it can have a key twice and lack one that nobody removes (C113_remove_fails). Sequentially consistent memory; evendeep.MakeClone is taken to return an equal value.

Theorems: `Parts.C113_copy`, `Parts.C113_other`, `Parts.C113_set`, `Parts.C113_after`, `Parts.C113_flag_fails`, `Parts.C113_remove_fails`.

### C114 Dup while new keys are set (partial)

The program of C113 beside those of C109. `Lemmas/RaceDupNew.lean`: for any family of memories that show the tree with some of the leaves that are to be added (`JShows`), whatever the others do, the copying ends with the sequential copy of the tree with other cores and with the leaves that had been added to each node at some moment (`Node.deck`, `Met`, `jleads_walk`, by induction over the tree). `Blend` (C109) says what is at a node at each moment, `dup_tree` what is in a copy.

C114_copy, C114_other, C114_set, C114_unset, C114_after: for new keys whose Set adds a leaf to a node, no two to the same one (Joins, as in C109). The last sentence is false: the copy can lack a new key although it has a value that was set later (C114_snapshot_fails); and beside a Set that splits a node the copy can have keys that nobody has ever set (C114_split_fails). Sequentially consistent memory; evendeep.MakeClone is taken to return an equal value.

Theorems: `Parts.C114_copy`, `Parts.C114_other`, `Parts.C114_set`, `Parts.C114_unset`, `Parts.C114_after`, `Parts.C114_snapshot_fails`, `Parts.C114_split_fails`.

### C115 Dup while keys are set, added and removed (partial)

The programs of C113 and C109. `Lemmas/RaceDupAll.lean`: for any family of memories in which the slices have, below the length seen, only children of the node that have been made (`VShows`, C111), whatever the others do, every node of the copy stems from a node of the tree at the same path, with what was there at two moments (`Took`), and every node to which the copying is sure to come (`Track`) has a copy (`Bits`, `bleads_walk`, by induction over the tree). `Lemmas/RaceGone.lean`: a slice of children in which a removal has come to its end does not lead to the removed node, so that no such node counts as made (`gone_shows`; for C111 too). `Blend` (C109) says what is at a node at each moment.

C115_copy, C115_other, C115_set, C115_unset, C115_removed: for removals that are apart (Tidy, as in C93) and new keys whose Set adds a leaf to a node (Joins, as in C109). The last sentence is false: beside one Remove the copy can have a key twice, so that it is still there after its removal from the copy, and can lack a key that nobody removes, if that stands behind the removed one (C113_remove_fails). Sequentially consistent memory; evendeep.MakeClone is taken to return an equal value.

Theorems: `Parts.C115_copy`, `Parts.C115_other`, `Parts.C115_set`, `Parts.C115_removed`, `Parts.C115_unset`.

### C116 Walk while keys are set, added and removed (partial)

`Model/RaceVisit.lean`: `Walk` with a program counter, beside the programs of C109. `Lemmas/RaceVisit.lean`: the walk of C111 for a callback that is called for every node (`WAdds`, `wleads_walk`, by induction over the tree that has all leaves that calls of `Set` ever add); `Blend` (C109) says which of the nodes have been made, `gone_shows` (C115) which have been removed before the walk. `Lemmas/RaceVisitNew.lean`: without removals the walk goes over a tree that lies between the trie and the trie with all leaves, so its order is that of `Node.walk`.

C116_walk, C116_set, C116_removed, C116_unset: for removals that are apart (Tidy, as in C93) and new keys whose Set adds a leaf to a node (Joins, as in C109). Without Remove the calls are in the order of Walk alone, none twice (C116_order, and C116_below for Walk of a node); after all calls have returned the walk is that of the resulting trie (C116_after). The sentence "It is called at most once…" is false: beside one Remove cb can be called twice for a node that nobody removes, and not at all for another (C116_twice_fails). cb only notes its arguments. Sequentially consistent memory; append makes a new array.

Theorems: `Parts.C116_walk`, `Parts.C116_set`, `Parts.C116_removed`, `Parts.C116_unset`, `Parts.C116_twice_fails`, `Parts.C116_below`, `Parts.C116_order`, `Parts.C116_after`.

### C117 Dump while keys are set and added (partial)

`Model/RaceDump.lean`: `dumpR` with a program counter, beside the programs of C109; the line of a node is that of `Model/Dump.lean` (C50). `Lemmas/RaceDump.lean`: by induction over the tree, the text is the dump of the tree with the leaves that had been added when the slice of each node was read, and the fields that were read (`Put`); `Blend` (C109) says what they can be. `Lemmas/RaceDumpNew.lean`: the dump in a memory that does not change, for `C117_after`.

C117_dump, C117_other, C117_after: all but the last sentence, for new keys whose Set adds a leaf to a node (Joins, as in C109). The last sentence is false: C117_snapshot_fails; and beside Remove the text can have the line of a key twice and lack that of a key that nobody removes (C117_remove_fails). The path and the kind of a node are read in one step, its other fields (but the mark) in another. Sequentially consistent memory; append makes a new array; fmt.Sprint, %q and the colours are arbitrary functions.

Theorems: `Parts.C117_dump`, `Parts.C117_other`, `Parts.C117_snapshot_fails`, `Parts.C117_after`, `Parts.C117_remove_fails`.

### C118 Dump while keys are set, added and removed (partial)

The model of C117. `Lemmas/RaceDumpAll.lean`: by induction over the tree with the leaves that may be added (as for C116): the lines that are written are those of nodes that have been made (`Rows`), and there is one for every node that the loops are sure to come to (`Way`). `Blend` (C109) and `Fell` (C115) say what a line can be about.

C118_dump, C118_set, C118_unset, C118_other, C118_removed: all but the last sentence, for removals that are apart (Tidy, as in C93) and new keys whose Set adds a leaf to a node (Joins, as in C109); nothing is said about the order of the lines (C117 does, without Remove). The last sentence is false: C117_remove_fails. The path and the kind of a node are read in one step, its other fields (but the mark) in another. Sequentially consistent memory; append makes a new array; fmt.Sprint, %q and the colours are arbitrary functions.

Theorems: `Parts.C118_dump`, `Parts.C118_set`, `Parts.C118_other`, `Parts.C118_removed`, `Parts.C118_unset`.

### C12 Dup gives an equal and independent store (proved)

`Node.dup` as written; answers agree for every path; independence is stated over histories on a heap of tries.

evendeep.MakeClone is taken to return an equal value that shares nothing with its argument. C12_meta_dropped: description, comment and tag are not copied.

Theorems: `C12_dup_answers`, `C12_dup_walk`, `C12_dup_independent`, `C12_meta_dropped`.

### C13 Metadata survives unrelated writes and overwrites (proved)

Entry invariant over histories: metadata of an entry only changes by the metadata setters.

Theorems: `C13_meta_survives`, `C13_fresh_meta`.

### C14 SetComment and SetTag touch only the named entry (partial)

Description of `SetComment`/`SetTag` through `locate`; exact on hits; on misses `C14_missing_partial` says exactly which entry is annotated, if any.

True when the path has an entry or nothing related is stored; C14_partial_match_fails shows that on a partial match the annotation lands on another entry; C14_missing_partial says exactly on which.

Theorems: `C14_missing_partial`, `C14_setComment_has`, `C14_setTag_has`, `C14_unrelated_partial`, `C14_partial_match_fails`, `C14_getters`, `C14_read_back`.

### C15 SetEx runs its callback once (partial)

`SetEx` with its callback modelled as recording of calls; the recursion calls the callback once per level; `C15_count_partial` gives the exact number of calls in terms of the stored prefixes.

Arguments and effect proved; the call count is wrong in the code (C15_count_fails); C15_count_partial says what it is.

Theorems: `C15_args_partial`, `C15_stores`, `C15_count_fails`, `C15_count_partial`.

### C16 Old value reported by Set (proved)

Result of `Set` computed from the insertion recursion.

Theorems: `C16_old_value`, `C16_old_value_new`.

### C17 Locate, Has, Query, Get agree (proved)

All readers reduce to `resolve`.

Theorems: `C17_agree`.

### C18 HasPart answers prefix questions (proved)

Induction on the tree for the partial-match flag.

C18_empty_fails for the empty trie.

Theorems: `C18_hasPart_iff`, `C18_empty_fails`.

### C19 GetM("") exports the whole tree (proved)

`GetM`/`GetR` at the root: fold over the walk; the result as a finite map.

Also GetR. C19_branch_data_lost, C19_prefix_fails, C19_prefix_panics, C19_empty_panics: what happens outside the claim.

Theorems: `C19_getM_exact`, `C19_getR_exact`, `C19_readback`, `C19_branch_data_lost`, `C19_prefix_fails`, `C19_prefix_panics`, `C19_empty_panics`.

### C20 Un-flattening keys is deterministic (proved)

`splitCompactKeys`/`submap` as written; confluence by commuting insertions into nested maps, over all orders.

C20_map_value_fails: the condition on values is needed.

Theorems: `C20_order_independent`, `C20_values`, `C20_map_value_fails`.

### C21 Typed getters: default only when missing (proved)

One generic getter with an arbitrary (possibly panicking) converter for the whole family of getters.

For every conversion, including panicking ones; the converters themselves are an external package. Slice getters return all defaults; C21_branch_value_ignored shows a surprising consequence of Get's found flag. C21_narrow: narrow integer getters give the number modulo 2^n (C21_narrow_fails: no error when it does not fit).

Theorems: `C21_found`, `C21_missing`, `C21_slices`, `C21_mustSlices`, `C21_stop`, `C21_bytes`, `C21_narrow`, `C21_narrow_fails`, `C21_branch_value_ignored`.

### C22 Kibi/kilo byte strings (proved)

`FromKibiBytes`/`FromKiloBytes` with the state machine on runes, a model of `strconv.ParseUint(s, 0, 64)`, uint64 arithmetic with wrap-around.

Any blanks below U+0080 around and between. The branch for numbers with a decimal point (strconv.ParseFloat) is not part of the claim; see C107. C22_wraps, C22_saturates, C22_zetta_ignored, C22_hex_fails, C22_octal, C22_blank_panics: behaviour outside the claim.

Theorems: `Bytes.C22_blanks`, `Bytes.C22_kibi`, `Bytes.C22_kilo`, `Bytes.C22_wraps`, `Bytes.C22_saturates`, `Bytes.C22_zetta_ignored`, `Bytes.C22_hex_fails`, `Bytes.C22_octal`, `Bytes.C22_blank_panics`.

### C23 Durations round-trip through text (partial)

Formatter and parser as written on digit lists; float64 as correctly rounded rationals; exact arithmetic and induction on digits.

The claim is false: C23_roundtrip_fails. Proved: whenever formatting returns, parsing gives the duration back, and formatting panics exactly for the durations described by C23_panic_iff. float64 arithmetic is modelled as correctly rounded rational arithmetic.

Theorems: `Dur.C23_roundtrip_partial`, `Dur.C23_panic_iff`, `Dur.C23_roundtrip_range_partial`, `Dur.C23_roundtrip_fails`, `Dur.C23_overflow_accepted`.

### C24 Operation sets and their text form (partial)

All operations and names; case analysis over the bit set.

The round trip is false for every operation except through lower-cased names (C24_roundtrip_fails, C24_roundtrip_lower_partial); Has is proved in full.

Theorems: `C24_roundtrip_fails`, `C24_roundtrip_lower_partial`, `C24_parse_single`, `C24_has`.

### C25 Context iteration is complete and sorted (proved)

Iteration state over the sorted key list; induction on the list.

C25_add_during and C25_empty_name describe additions during an iteration and the empty name.

Theorems: `Ctx.C25_iterate`, `Ctx.C25_reset`, `Ctx.C25_nextName`, `Ctx.C25_withValues`, `Ctx.C25_add_during`, `Ctx.C25_empty_name`.

### C26 TTL expiry clears exactly its entry (partial)

Transition system: API calls, timer expiry, and goroutine steps as atomic steps, arbitrary interleavings; invariants over executions. Real clocks are not modelled.

The last sentence is false: C26_close_fails (a timer that expired before Close, or whose goroutine has not reached its select, still clears the entry). Proved: expiry clears exactly its entry in every execution in which the entry is neither split nor removed (C26_expiry, C26_answers), and Close stops every timer whose goroutine waits (C26_close_partial). Calls, timers and goroutine steps are atomic: data races inside one call are not modelled.

Theorems: `Sys.C26_expiry`, `Sys.C26_detached`, `Sys.C26_setTTL`, `Sys.C26_answers`, `Sys.C26_close_partial`, `Sys.C26_close_starting`, `Sys.C26_branch`, `Sys.C26_close_fails`, `Sys.C26_close_view_fails`, `Sys.C26_split_fails`, `Sys.C26_branch_value`, `Sys.C26_reset_cleared`, `Sys.C26_short_ignored`, `Sys.C26_dup_fails`, `Sys.C26_prefix_fails`, `Sys.C26_removed_branch_fails`.

### C27 Change handlers fire once per user write (proved)

Store layer (`setKV`, `tryOnSet`, `remove`, `tryOnDelete`) with handlers as opaque names and their invocations as an event list.

For every store state. C27_flag_fails: the mergingMapOrLoading argument is inverted; C27_silent_*: writes through prefix views, merges and map loads call no handler; C27_stream_fails: loading a stream reports overwritten keys as new.

Theorems: `Store.C27_set`, `Store.C27_old`, `Store.C27_remove`, `Store.C27_flag_fails`, `Store.C27_silent_views`, `Store.C27_silent_merge`, `Store.C27_stream_fails`.

### C28 Modified state tracks user writes (partial)

`modified` marks through the store layer; `Save` as `GetM` with a filter.

Marks of Set, Merge and Load proved for every store. Save: exact description of the saved map without prefix; the claim itself fails for branch entries and for leaves below another leaf (C28_save_loses_branch, C28_save_loses_below) and, with a prefix, as in C19_prefix_fails. C28_reload_stays_modified: a reload does not clean the mark.

Theorems: `Store.C28_save_partial`, `Store.C28_save_loses_branch`, `Store.C28_save_loses_below`, `Store.C28_set_mark`, `Store.C28_merge_mark`, `Store.C28_load_mark`, `Store.C28_withinLoading`, `Store.C28_reload_stays_modified`.

### C29 Merge and Load put every leaf at its dotted path (proved)

`loadMap`/`loadMapByValueType` by mutual recursion over nested values, proved equal to a sequence of `Set` calls; then C03.

Paths free of route patterns; with slice flattening the map keys must be non-empty (C29_empty_key_fails). C29_merge_prefix_fails: Merge ignores the prefix of a view. C29_meta_fails, C29_stream_fails: further deviations of Load.

Theorems: `Store.C29_merge`, `Store.C29_merge_last`, `Store.C29_merge_is_sets`, `Store.C29_load_is_sets`, `Store.C29_load`, `Store.C29_load_nested`, `Store.C29_merge_prefix_fails`, `Store.C29_empty_key_fails`, `Store.C29_order_fails`, `Store.C29_meta_fails`, `Store.C29_stream_fails`.

### C30 Deflate splits dotted keys without losing leaves (proved)

`Deflate` of a flat map; confluence over all iteration orders.

For every non-empty delimiter string. C30_extending_fails and C30_empty_panics: what happens when keys extend each other or a key is empty.

Theorems: `C30_components`, `C30_deflate`, `C30_order_independent`, `C30_extending_fails`, `C30_empty_panics`.

### C31 Normalize removes all map[any]any (partial)

`Normalize` by structural recursion.

Clean result proved for values whose slices contain no slices or typed map slices; beyond that the claim is false (C31_nested_slice_fails, C31_map_slice_fails). Agreement on paths needs keys that are distinct as text (C31_collision_fails).

Theorems: `C31_clean_partial`, `C31_nested_slice_fails`, `C31_map_slice_fails`, `C31_agrees`, `C31_collision_fails`.

### C32 Key normalisation of consul/etcd providers (proved)

`NormalizeKey` of consul/etcd as list rewriting.

For delimiters of several characters, 'contains no delimiter' is read as not containing its first character; C32_overlap_fails shows the weaker reading fails. C32_outside_fails, C32_delim_fails, C32_separator_fails: behaviour outside the claim.

Theorems: `Remote.C32_strip`, `Remote.C32_prepend`, `Remote.C32_no_slash`, `Remote.C32_injective`, `Remote.C32_outside_fails`, `Remote.C32_overlap_fails`, `Remote.C32_delim_fails`, `Remote.C32_separator_fails`.

### C33 Route patterns capture path segments (partial)

The fuel-indexed `retriever` loop of `matchR`; exact description of one pattern.

Exact description for a single pattern (pattern_lookup); the code deviates from the claim for patterns ending in a literal, for paths of the pattern's length, for segments starting with ':' and for an empty last segment (C33_*_fails).

Theorems: `C33_captures_partial`, `C33_only_partial`, `C33_literal_fails`, `C33_length_fails`, `C33_colon_fails`, `C33_empty_fails`.

### C34 Lookups terminate (partial)

As C33; adequacy of the fuel: running out means that the Go loop never ends.

Proved for all trees in which no entry path ends with ':' (in particular without route patterns: C05_has_total); otherwise false: C34_hang_fails. C34_hang_is_divergence: the model's fuel is exact.

Theorems: `C34_terminates_partial`, `C34_terminates_sets_partial`, `C34_hang_fails`, `C34_hang_is_divergence`.

### C35 Recursive-up lookups (proved)

`search` in recursive-up mode: recursion over the delimiters of the path.

Exact for every tree, including trees with route patterns. C35_partial_blocks and C35_top_never record two consequences that users may not expect.

Theorems: `C35_nearest_scope`, `C35_plain_first`, `C35_ancestor`, `C35_partial_blocks`, `C35_top_never`.

### C36 Watched changes are applied (proved)

`applyChanges` over the store layer; the event is its operation bits and its pairs.

An event is its operation set and the pairs Next yields; views not in recursive-up mode.

Theorems: `Store.C36_write`, `Store.C36_remove`, `Store.C36_other`.

### C37 Consul change detection (proved)

`Set`/`Next` of a consul change over two snapshots; list lemmas.

C37_history composes over whole watch histories. C37_mixed_loses_removal and C37_single_removal_fails: behaviour outside the claim.

Theorems: `Remote.Change.C37_changed`, `Remote.Change.C37_removed`, `Remote.Change.C37_history`, `Remote.Change.C37_mixed_loses_removal`, `Remote.Change.C37_single`, `Remote.Change.C37_single_removal_fails`.

### C38 Export then load is the identity (partial)

Composition of C19/C20 (export) and C29 (load).

Besides the stated conditions the keys must have no empty component and no blank, and map[any]any, ValPkg and (if flattened) slice values are excluded; the C38_*_fails theorems show that this is needed.

Theorems: `Store.C38_roundtrip_partial`, `Store.C38_empty_component_fails`, `Store.C38_map_value_fails`, `Store.C38_store_mustGet_fails`, `Store.C38_component_prefix_fails`.

### C39 Joining paths (proved)

List algebra; byte/rune distinction of delimiters.

C39_bytes: delimiters below 128; C39_rune_delim_fails for others.

Theorems: `C39_join`, `C39_join1`, `C39_assoc`, `C39_split`, `C39_bytes`, `C39_rune_delim_fails`.

### C40 SetEmpty and Update (proved)

Point update at the entry.

C40_update_wipes: Update resets the data before the callback runs.

Theorems: `C40_setEmpty`, `C40_update`, `C40_update_wipes`, `NodeOp.C40_writes`, `NodeOp.C40_marks`.

### C41 Etcd events (proved)

Case analysis over the event.

Theorems: `Remote.C41_etcd`.

### C42 Exporting below a path (partial)

`GetM(p)`/`GetR(p)` below a path: `locate`, byte offsets, `put`/`putKeys`.

GetR and GetM with WithKeepPrefix are proved in full (trees without route patterns, values that are no maps). GetM(p) is false for paths of several components (C42_two_components_fails, C42_three_components_fails), when an entry shares only characters with p (C42_sibling_fails), for the entry at p itself (C42_fragment_fails) and with deep entries under a prefix (C42_prefix_fails); proved for the rest.

Theorems: `C42_getR`, `C42_getM_keepPrefix`, `C42_getM_partial`, `C42_getM_prefix_partial`, `C42_absent`, `C42_two_components_fails`, `C42_collision_fails`, `C42_three_components_fails`, `C42_sibling_fails`, `C42_fragment_fails`, `C42_prefix_fails`, `C42_partial_match`.

### C43 Merging into a trie (partial)

`Trie.Merge` with `radix/load.go` as written (a different traversal from the store's).

Proved for maps of plain values and slices of such maps at any position, and for one level of nesting at the root. Otherwise false: C43_position_fails, C43_depth_fails, C43_slice_fails, C43_collision_fails, C43_nil_panics.

Theorems: `C43_merge_partial`, `C43_agrees_with_store`, `C43_position_fails`, `C43_depth_fails`, `C43_slice_fails`, `C43_nil_panics`, `C43_collision_fails`.

### C44 Environment variables and flags as keys (partial)

Environment and flags providers; the regular expression as a rewriting function on names.

All but the clause on Next proved; Next is inverted in the code (C44_next_fails: it reports the end at once although there are keys, and panics without keys). strings.ToLower is an arbitrary function. C44_strip_panics, C44_flag_prefix_fails, C44_position_ignored, C44_collision_fails, C44_count_fails (names that share a key are counted each): behaviour outside the claim.

Theorems: `C44_dots`, `EnvCfg.C44_filter`, `EnvCfg.C44_key`, `EnvCfg.C44_injective`, `EnvProv.C44_table`, `EnvProv.C44_load`, `EnvProv.C44_next_fails`, `EnvProv.C44_count`, `EnvProv.C44_position_ignored`, `C44_options`, `C44_position`, `C44_flag_prefix_fails`, `C44_strip_panics`, `C44_count_fails`, `C44_collision_fails`, `C44_environ`, `C44_last`.

### C45 Reading through a store (partial)

Store readers on top of `Query`.

The middle clause is proved exactly when k is not on a branch of the tree; otherwise MustGet returns nil although the value was stored (C45_set_fails: Set("apple"), Set("app"), MustGet("app")). Unlike Trie.MustGet (C01) the store's version also looks at the error of Query.

Theorems: `Store.C45_mustGet_get`, `Store.C45_set_partial`, `Store.C45_frame`, `Store.C45_load`, `Store.C45_set_fails`.

### C46 Walking from a path (partial)

`Walk(path)`: start node as chosen by the code, then C09 for the subtree.

Holds when p has an entry and ends with the delimiter (C46_subtree_partial). Without the trailing delimiter the walk starts at the parent node (C46_parent), on a partial match it is the whole tree (C46_partial_match), so siblings and unrelated entries are visited: C46_siblings_fails, C46_no_entry_fails, C46_prefix_fails.

Theorems: `C46_subtree_partial`, `C46_parent`, `C46_partial_match`, `C46_unrelated`, `C46_siblings_fails`, `C46_no_entry_fails`, `C46_prefix_fails`.

### C47 Changing the delimiter (proved)

Views of different delimiters over the same tree; both lookups reduce to `resolve` at the stored path.

The found flag of Get at a branch entry does depend on the delimiter (C47_branch_found_fails), which is why the statement restricts it to leaves.

Theorems: `C47_stored`, `C47_last_write`, `C47_absent`, `C47_shift`, `C47_branch_found_fails`.

### C48 Loading a map (proved)

`maps.New` (Normalize, Deflate, package values) composed with `Load` (C29, C30, C31).

C48_extending_fails and C48_empty_component_fails show that the two conditions are needed. The position option of the provider is ignored by Load.

Theorems: `Store.C48_load`, `Store.C48_dotted`, `Store.C48_plain`, `Store.C48_extending_fails`, `Store.C48_empty_component_fails`.

### C49 Loading is exclusive (proved)

A transition system: the loading flag of every store object, a call stack per goroutine; invariant over all runs.

The compare-and-swap, the release and the copying of a store are atomic steps. The guarantee is per store object: a store and a view of it can be loaded at the same time (C49_views_fails), and a copy made while its original is loading ignores Load for ever (C49_copy_never_loads).

Theorems: `Loading.C49_exclusive`, `Loading.C49_skipped`, `Loading.C49_available`, `Loading.C49_copy`, `Loading.C49_copy_never_loads`, `Loading.C49_views_fails`, `Loading.C49_store`.

### C50 Dump prints the tree (proved)

`dumpR` with opaque formatting; the depth of a node is the number of stored proper prefixes.

Formatting of values and colours is an arbitrary function. For keys that are not ASCII the shown key can be cut and marked WRONG (C50_wrong_fails); data stored at the root is never shown (C50_root_hidden).

Theorems: `C50_dump`, `C50_shows`, `C50_no_wrong`, `C50_line`, `C50_wrong_fails`, `C50_root_hidden`.

### C51 StartsWith and EndsWith (proved)

`Locate` plus the first/last rune of the fragment; the fragment starts after the longest stored proper prefix.

Storing an unrelated key changes the answer of StartsWith (C51_startsWith_fails).

Theorems: `C51_endsWith`, `C51_startsWith`, `C51_startsWith_fails`.

### C52 Where Load takes its data from (partial)

`Model/Provider.lean` models options, loader, providers (by what `Read`, `ReadBytes`, `Next`/`MustValue`, `Write`, `GetCodec` give) and codecs (as functions). `C52_load` reduces a load with any option list to the simple model of C29 with the last option of each kind; read-back then follows from `C29_load`.

C52_load, C52_reads_back and C52_writeable hold for all options and providers (that return no data along with an error); a stream provider reports an error although its pairs were stored (C52_stream_fails), and a flatten option in front of the prefix option outlives the load (C52_flatten_fails).

Theorems: `Store.C52_load`, `Store.C52_no_provider`, `Store.C52_reads_back`, `Store.C52_error_partial`, `Store.C52_writeable`, `Store.C52_stream_fails`, `Store.C52_flatten_fails`, `Store.C52_dishonest_fails`.

### C53 Save and load back (partial)

`Save`/`SaveAs` through `GetM` with the modified filter; `load_nested` generalises the proof of C38 to any selection of entries and any target store; composed with `C52_load`.

C53_nothing, C53_outcome in general for loaders without prefix; the round trip for keys and values that survive nesting (see C38); with WithStorePrefix the saved keys are cut (C53_prefix_fails).

Theorems: `Store.C53_nothing`, `Store.C53_outcome`, `Store.C53_save_load_partial`, `Store.C53_saveAs_load_partial`, `Store.C53_prefix_fails`.

### C54 Watching files and closing the store (partial)

`Model/Watch.lean`: a transition system of providers, their goroutines (not begun, testing the flag, waiting, ended) and the closers of the store; all interleavings. Invariants by induction over runs (`run_prov`): active goroutines are at most the `watching` flag; after `Close` calls plus waiting goroutines do not grow.

C54_single for all runs without Close; C54_after_close_partial for providers loaded without a prefix option, whose goroutines had begun, and which are not loaded again. Otherwise Close has no effect or is undone (C54_prefix_fails, C54_close_lost_fails, C54_revived_fails); a cancelled or failed watcher blocks later ones (C54_rewatch_fails). The Go scheduler and fsnotify are represented by arbitrary interleavings and events.

Theorems: `Watch.C54_single`, `Watch.C54_after_close_partial`, `Watch.C54_closers`, `Watch.C54_prefix_fails`, `Watch.C54_close_lost_fails`, `Watch.C54_revived_fails`, `Watch.C54_rewatch_fails`.

### C55 A store follows an etcd database (partial)

`Model/Mirror.lean`: an etcd database as a map with revisions that emits an event per change; `Read`, `Watch`, the change object and `applyChanges` composed. `follow_spec` is an induction over the history with the invariant `Mirrors` (entries agree with the database, deleted keys have nothing behind their path).

C55_follows_partial for all histories, for keys whose paths are not empty, without blanks and route patterns, and not prefixes of one another, and for changes after the watching began. Otherwise it fails: C55_prefix_key_fails, C55_same_path_fails, C55_blank_fails, C55_gap_fails. After a load with a store prefix the changes call no handlers and set no mark (C55_prefix_silent, C55_prefix_fails). The etcd server is represented by its specification.

Theorems: `Etcd.C55_range`, `Etcd.C55_follows_partial`, `Etcd.C55_prefix_silent`, `Etcd.C55_prefix_key_fails`, `Etcd.C55_same_path_fails`, `Etcd.C55_blank_fails`, `Etcd.C55_gap_fails`, `Etcd.C55_prefix_fails`.

### C56 Sections of a store into a holder (To, GetSectionFrom) (partial)

`To` with the copier as an arbitrary function. Splitting keys is idempotent (`split_split`), so `To` reduces to `GetM`, whose results are C19, C20, C42.

C56_section (unconditional): the map is that of GetM with nested keys, and the fallback to GetR has no effect. C56_root for the whole store, C56_path_partial for sections named by one component, C56_absent, C56_no_holder. For longer section names the code delivers wrong maps (C56_two_components_fails), and a missing section may be filled from another entry (C56_missing_fails). evendeep's CopyTo is an arbitrary function.

Theorems: `C56_section`, `C56_no_holder`, `C56_root`, `C56_path_partial`, `C56_absent`, `C56_two_components_fails`, `C56_missing_fails`.

### C57 A store follows a consul database (partial)

`Model/MirrorConsul.lean`: a consul database with creation and modification indices; the watch plan delivers a snapshot per change; composed with the change object of C37 and `applyChanges`. Induction over the history with the invariant `Agrees`; each step uses `C37_changed` or `C37_removed` to find the single pair that the change object yields.

C57_follows_partial: keys usable as store paths (as in C55), no changes between reading and watching, one snapshot per change; a value is a string or a byte slice depending on how it has arrived. Violations: C57_type_fails, C57_merged_fails, C57_gap_fails.

Theorems: `Consul.C57_follows_partial`, `Consul.C57_type_fails`, `Consul.C57_merged_fails`, `Consul.C57_gap_fails`.

### C58 Handlers that call back into the store (proved)

`Model/Reenter.lean`: code as a tree of calls (`Prog`), handlers as functions from events to code, a bound on the nesting (`none` = exceeded). A run gives a log; `Valid`/`Called` say inductively what a log must look like, and replaying the changes of a valid log gives the final store and the store that each handler finds. Termination by induction over ranks.

C58_run, C58_sequential, C58_seen, C58_last_write, C58_others, C58_handler_reads, C58_handler_misses, C58_fuel, C58_terminates; C58_loop_fails is the boundary of termination. Handlers have no state besides the store.

Theorems: `Store.C58_run`, `Store.C58_sequential`, `Store.C58_seen`, `Store.C58_last_write`, `Store.C58_others`, `Store.C58_handler_reads`, `Store.C58_handler_misses`, `Store.C58_fuel`, `Store.C58_terminates`, `Store.C58_loop_fails`.

### C59 Making stores: the options of New and derived stores (proved)

`Model/New.lean`: options folded over a zero store. `C59_new` is an induction from the end of the list; the specification (`lastOf`, `allOf`) only filters the option list.

The options are modelled as constructors, one per With… function; handlers are identified by numbers. That derived stores drop handlers is what the code does (recorded as a disagreement with what one would expect).

Theorems: `StoreW.C59_new`, `StoreW.C59_order`, `StoreW.C59_empty`, `StoreW.C59_derive`, `StoreW.C59_dup`.

### C60 HCL blocks that occur once (proved)

`Model/Hcl.lean`: the two mutually recursive functions of the codec. `At` says inductively how a value is reached through maps and single blocks, without flattening; the leaves of the flattened map are matched against it and handed to C29.

The parser of hashicorp/hcl is external; the maps it delivers are arbitrary, with distinct keys. C60_inner_fails: single blocks inside blocks that occur several times are not entered (stated property excludes them).

Theorems: `Hcl.C60_idempotent`, `Hcl.C60_no_single`, `Hcl.C60_paths`, `Hcl.C60_load`, `Hcl.C60_option`, `Hcl.C60_inner_fails`.

### C61 What String and MarshalJSON of a store say (partial)

`Model/Text.lean` writes the texts (with `strconv.Quote` spelled out), `Spec/Json.lean` is an independent reader of JSON strings and objects (RFC 8259); the proof runs the reader over the text.

C61_json_partial holds for prefixes whose characters Go's and JSON's quoting treat alike and delimiters that need no escape; C61_json_iff shows that these are exactly the cases (otherwise the result is not a JSON text: C61_bell_fails, C61_delim_fails). C61_trie_fails: the text of a trie alone is never JSON. C61_string is the full claim about String.

Theorems: `C61_json_partial`, `C61_json_iff`, `C61_trie_fails`, `C61_string`, `C61_bell_fails`, `C61_delim_fails`.

### C62 Route patterns among other entries (partial)

`Misses` says where a path leaves a key; the lookup lemmas of C01-C05 are proved under it (`matchR_clear`, `Tree.ClearAt`) and it is closed under prefixes, hence an invariant of all histories. `matchR_among` is an induction over the tree: a leaf at depth matches like the whole path (`matchR_leaf_at`, shift lemmas for the capture loop), all siblings are skipped (`matchR_skip`). The nodes of a tree made by `Set` calls are the common prefixes of its keys (`sets_denotes`).

The first half is proved in full (C62_read_own_write, C62_last_write_wins, C62_never_written, C62_entries_answer). C62_route_partial proves the second half for paths that leave every other key before its end and not at a route marker. Elsewhere it fails: C62_shadow_fails, C62_rest_fails (the earlier of two fitting keys answers), C62_beyond_fails, C62_inside_fails (a literal set first hides the pattern for longer and shorter paths), C62_names_fail (two names for one position: neither is found).

Theorems: `C62_read_own_write`, `C62_last_write_wins`, `C62_never_written`, `C62_entries_answer`, `C62_route_partial`, `C62_shadow_fails`, `C62_rest_fails`, `C62_beyond_fails`, `C62_inside_fails`, `C62_names_fail`.

### C63 Values after any mixed history (proved)

`Tree.dataAt` is the value at a full path. One lemma per call says how it changes `dataAt` (`dataAt_insert`, `dataAt_hit`, `dataAt_meta`, `dataAt_remove`); `effect` states the same on a plain map without any tree, and the theorems fold it over the history. The store calls are reduced to assignments by C29 (`load_tree` adds streams and failing providers).

C63_history (trie), C63_store_history (stores), C63_remove_result. Excluded: writing calls in recursive-up mode, route patterns (C62), views with different delimiters (C46), and writes through node pointers kept by the caller.

Theorems: `C63_history`, `C63_remove_result`, `Store.C63_store_history`.

### C64 The trie stays small (partial)

The nodes correspond to their full paths, without repetition, so covering and distinct lists of paths bound their number from both sides (`walk_le`, `le_walk`). `insert_new`: two branches made by one insertion would have a common prefix that is already stored. The leak is an induction over the number of removed keys.

Proved for histories of Set (C64_size, C64_branching); C64_growth bounds the nodes by the number of writing calls in all histories of C63. With Remove the claim is false: C64_leak_fails gives, for every n, a history after which one path has a value and more than n nodes exist, because Remove never joins a branch with its only child.

Theorems: `C64_size`, `C64_branching`, `C64_growth`, `C64_leak_fails`.

### C65 A store that watches its file (partial)

`Model/FileWatch.lean`: the body of the watcher loop as a function from its local state and what is received to the calls of the callback, and the type assertion of `applyExternalChanges`. The file system is an arbitrary list of inputs; starting and stopping the goroutine is C54.

The reporting half is proved (C65_write_calls, C65_other_files, C65_error_last). The second half is false for every store and every sequence of events: C65_follows_fails (the change is passed by value, which does not implement the interface the store asks for); C65_pointer_fails shows that passing the address would change nothing, as the operation of the change is never set.

Theorems: `FileWatch.C65_write_calls`, `FileWatch.C65_other_files`, `FileWatch.C65_error_last`, `FileWatch.C65_follows_fails`, `FileWatch.C65_pointer_fails`, `FileWatch.C65_each`, `FileWatch.C65_removed`, `FileWatch.C65_bits`, `FileWatch.C65_pair`, `FileWatch.C65_order`.

### C66 Erasing a key when its time is up (partial)

On the transition system of C26. A node that is not in its tree does not come back, because identities are fresh (`Op.run_ids`), and its job does not notice anything (`step_branch`, `Run.left`); so `C26_detached` applies after any continuation. The key of a leaf is its path (C10), so `Remove` hits exactly its subtree (C07).

C66_left holds for every execution. The recipe erases exactly the subtree at the key as long as its node was not split (C66_erase_partial). C66_below_fails: keys that merely begin with the erased key go too; C66_split_fails: after a split the key of the node is a common prefix, and the siblings go; C66_prefix_fails: through a view with a prefix no timer is set at all, and Remove finds nothing.

Theorems: `Sys.C66_left`, `Sys.C66_erase_partial`, `Sys.C66_below_fails`, `Sys.C66_split_fails`, `Sys.C66_prefix_fails`.

### C67 Loading depends on the leaves only (partial)

Two lists of writes with the same last value per key lead to the same paths (`putTrees_dom`: the old paths, the keys and their common prefixes) and the same data (C63), hence to the same answers (`same_reads`). `putTrees_leaf` follows the kind of an entry through the writes: only entries with something below them can differ (`same_query`).

MustGet of the trie and Has never depend on it, nor does any answer for a path below which nothing is stored (C67_merge_partial, C67_load_partial); dotted and nested keys are loaded by the same writes (C67_dotted); order of iteration: C67_order; twice: C67_again. C67_order_fails: for {port: 1, ports: 2} Store.MustGet("port") is 1 or nil depending on the iteration order.

Theorems: `Store.C67_merge_partial`, `Store.C67_load_partial`, `Store.C67_order`, `Store.C67_dotted`, `Store.C67_dotted_merge`, `Store.C67_again`, `Store.C67_order_fails`.

### C68 Extracting a subset (proved)

The export is a fold over the walk that keeps what the options select (C19); a filter only restricts the selection (`selected_filtered`), and a prefix of the key as runes is a prefix of its bytes (`utf8_prefix_iff`).

For views without a prefix; with one, GetM("") is empty (C19_prefix_fails). Stated for the leaves, since GetM exports nothing else.

Theorems: `C68_filter`, `C68_prefix`, `C68_cut`, `C68_modified`.

### C69 Cutting a subset out and pasting it (partial)

The exported map is flat, its keys are the keys of leaves (C68), so merging it is a list of writes at `pos.k` (C29), in the order of iteration; `place_inj`: different keys go to different places, so the last write per place is the only one.

C69_paste_partial: holds for all leaves with plain (map-free) values. C69_branch_fails: a value on a key that has keys below it is not exported and does not come along. C69_setPrefix_fails: SetPrefix moves nothing, contrary to README "Easily Cutting"; afterwards the old keys are just not found.

Theorems: `Store.C69_paste_partial`, `Store.C69_branch_fails`, `Store.C69_setPrefix_fails`.

### C70 Quoted strings can be read back (proved)

`unquote`, a reader written from the format alone, inverts the quoting byte by byte; the output bytes are between 32 and 127.

On bytes, as the code works on them.

Theorems: `C70_read_back`, `C70_injective`, `C70_printable`.

### C71 What Locate reports (partial)

By the invariants of matching (`PM`), a failed search ends at the shortest extension, at a childless proper prefix, or nowhere (`MissNode`); nodes and entries correspond.

C71_locate_partial gives the answer in every case, by the stored entries alone. C71_doc_fails: on a partial match found is false, although the documentation of Locate says true.

Theorems: `C71_locate_partial`, `C71_doc_fails`.

### C72 The lock of an entry with a timer (partial)

`Model/NodeLock.lean`: goroutines at one node, each access to the field `rw` and each lock operation a step. The invariant counts the readers and writers inside and equates them with the state of the mutex.

C72_exclusive_partial and C72_progress_partial: for any number of goroutines once a SetTTL on the entry has returned, without Set. C72_set_fails: Set on an existing key writes without the lock. C72_first_fails: a reader that started before the first SetTTL reads without it. C72_abort_fails: two overlapping first calls of SetTTL make two locks, and a reader unlocks the wrong one. Assumes sequential consistency.

Theorems: `NodeLock.C72_exclusive_partial`, `NodeLock.C72_progress_partial`, `NodeLock.C72_set_fails`, `NodeLock.C72_first_fails`, `NodeLock.C72_abort_fails`.

### C73 Setting timers and closing from several goroutines (partial)

`Model/TtlRace.lean`: goroutines in `SetTTL` and `Close`, each access to `ttlpresent` and `ttls`, the send and the exit of `run` a step. Invariants per program counter for serial executions; a separate invariant for overlapping calls of `SetTTL`; `stuck`: a sender to an exited object never moves.

C73_serial_partial, C73_close_partial: all of it when calls do not overlap. C73_many_partial: any number of overlapping calls of SetTTL once one has returned, without Close. C73_steps: a call takes at most four steps of its own. C73_panic_fails: two overlapping first calls, nil dereference. C73_block_fails, C73_reopen_fails: SetTTL waits for ever at a closed object. C73_leak_fails: an object that a later Close does not close. Assumes sequential consistency.

Theorems: `TtlRace.C73_serial_partial`, `TtlRace.C73_close_partial`, `TtlRace.C73_steps`, `TtlRace.C73_many_partial`, `TtlRace.C73_panic_fails`, `TtlRace.C73_block_fails`, `TtlRace.C73_reopen_fails`, `TtlRace.C73_leak_fails`.

### C74 Codec objects can be reused (partial)

`Model/Codecs.lean`: a codec as a state machine around an arbitrary library; a run of calls is compared with the answers of fresh objects.

C74_repeatable, C74_read_back, C74_errors for json, yaml, toml, hjson, nestext; C74_table and C74_table_last for the table. gob fails (C74_gob_fails): Marshal never returns bytes, and from the second call on Unmarshal ignores its argument; C74_gob_partial is what is left. The pretty option of json, on by default, has no effect (C74_pretty_fails). The libraries are parameters.

Theorems: `Codecs.C74_repeatable`, `Codecs.C74_read_back`, `Codecs.C74_errors`, `Codecs.C74_pretty_fails`, `Codecs.C74_gob_partial`, `Codecs.C74_gob_fails`, `Codecs.C74_gob_stream`, `Codecs.C74_table`, `Codecs.C74_table_last`.

### C75 Comments of an hjson document (partial)

`Model/Hjson.lean`: documents and packages as trees; the path of names is followed in both (`Doc.at`, `Map.at`). The keys that hjson-go's `AtIndex` gives (name of a field, empty for an element) are taken from its documentation.

C75_decode_partial, C75_values: documents that are objects, without arrays or with WithFlattenSlice(false). C75_array_fails: otherwise only the last element of an array is kept. C75_root_fails: a string at the top becomes its own name, a number is lost, an array loses all but its last element.

Theorems: `Hjson.C75_decode_partial`, `Hjson.C75_values`, `Hjson.C75_array_fails`, `Hjson.C75_root_fails`, `Hjson.C75_null`.

### C76 Parsing times with known layouts (proved)

`Model/Times.lean`: the loop over the layouts and the list as state; `tryAll` is `find?` with the last error.

C76_first, C76_accepts, C76_stable. time.Parse is a parameter; calls one at a time (the list has no lock).

Theorems: `Times.C76_first`, `Times.C76_must`, `Times.C76_accepts`, `Times.C76_stable`.

### C77 The dummy store is an empty store (partial)

`Model/Dummy.lean`: the answers of the dummy store; `search_new`: a search in an empty trie ends in a partial match of nothing.

C77_dummy_partial: MustGet, Get, Has, Remove, SetComment, SetTag, GetEx and the typed getters without defaults. C77_answers_fail: defaults are ignored, errors are nil, Locate and Walk differ. C77_getM_fails: GetM of a path panics in an empty store, not in the dummy store.

Theorems: `Dummy.C77_dummy_partial`, `Dummy.C77_answers_fail`, `Dummy.C77_getM_fails`.

### C78 Joining and searching from several goroutines: the pools (proved)

`Model/Pool.lean`: a transition system over numbered objects, for any kind of pooled object; an invariant says which goroutine holds which object and that what it saw is what it would see alone. Instances: buffers (always reset) and match contexts (never cleared, always overwritten).

sync.Pool is modelled as: Get takes any object in the pool or makes a new one, objects may vanish. The memory model (visibility of writes between Put and Get) is assumed sequentially consistent.

Theorems: `Pool.C78_join`, `Pool.C78_apart`, `Pool.C78_clean`, `Pool.C78_ctx`, `Pool.C78_ctx_now`, `Pool.C78_free`.

### C79 Keys as Go strings (partial)

`Model/ByteKeys.lean`: join, blanks and lookup on bytes; UTF-8 decoding as in Go (invalid bytes give U+FFFD). Reduced to the theorems about texts by `runes_append`, `decode_bad`, `dashBytes_utf8`.

C79_refines, C79_apart: holds for valid UTF-8 and ASCII delimiters. C79_delim: a prefix joins as it should exactly for ASCII delimiters and U+FFFD; C79_delim_fails: otherwise entries are not found through the prefix. C79_alike, C79_invalid_fails: strings that are not UTF-8 share the entry of every string that decodes alike. pathS of such leaves is not modelled.

Theorems: `C79_delim`, `C79_refines`, `C79_apart`, `C79_alike`, `C79_alias`, `C79_invalid_fails`, `C79_delim_fails`.

### C80 Writing HCL (partial)

`Model/HclMarshal.lean`: `ctyValue`, `fill`, `Marshal` as functions to a tree of blocks and attributes, panics included; paths of keys are followed in map and document.

C80_marshal_partial: holds for maps whose values are bools, strings, integers, stringers and lists of these of one type (C80_values: exactly those values are kept). C80_error_fails: no error is ever reported; C80_null_fails: other values become null; C80_drop_fails: such elements vanish from lists; C80_panic_fails: mixed lists, lists of maps and empty lists beside others panic. The text of the document is hclwrite's; that cty.ListVal panics and NilVal prints as null is taken from cty and hclwrite.

Theorems: `HclMarshal.C80_values`, `HclMarshal.C80_marshal_partial`, `HclMarshal.C80_order`, `HclMarshal.C80_error_fails`, `HclMarshal.C80_null_fails`, `HclMarshal.C80_drop_fails`, `HclMarshal.C80_panic_fails`.

### C81 Consul and etcd providers read what their options say (partial)

`Model/ReadModes.lean`: options folded over a provider, the server as its answers, Go maps as lists with replacement. `at_put` reduces the loops to a search from the end (`collect_at`); the specification says which pairs are in scope. That meta data are lost holds because `setKV` runs its callback only outside loading (`privateSetter_load`).

consul's single mode panics when the key is missing (C81_missing_fails), WithPrefix has no effect (C81_prefix_fails), and none of the meta data reach a store (C81_meta_lost_fails, C81_meta_same_fails); etcd's WithPosition alone reads one key (C81_position_fails), and no option sets the limit.

Theorems: `ReadModes.C81_consul_list`, `ReadModes.C81_consul_last`, `ReadModes.C81_consul_get_partial`, `ReadModes.C81_missing_fails`, `ReadModes.C81_consul_error`, `ReadModes.C81_value`, `ReadModes.C81_meta`, `ReadModes.C81_meta_lost_fails`, `ReadModes.C81_meta_same_fails`, `ReadModes.C81_consul_options`, `ReadModes.C81_prefix_fails`, `ReadModes.C81_etcd_options`, `ReadModes.C81_etcd_read`, `ReadModes.C81_etcd_limit`, `ReadModes.C81_position_fails`.

### C82 Files under loading and saving (partial)

`Model/Files.lean`: a world of files and provider objects; `Load`, `Save`, `SaveAs` as in C52/C53, with their effects on both. `Writes` says when a call writes what; a step writes exactly then (`C82_writes`, `C82_untouched`), and induction over the history from its end gives the origin of a file's contents. Reading back is composed from C53.

Save replaces the file by the modified entries, so loaded and unmodified values are lost (C82_lost_fails, C82_save_loses_fails); SaveAs ignores its file name and without a provider does nothing, without an error (C82_outfile_fails); a Load during a Save can read an empty file and succeed (C82_torn_fails). Reading back is partial as C53.

Theorems: `Files.C82_writes`, `Files.C82_untouched`, `Files.C82_codec`, `Files.C82_position`, `Files.C82_origin`, `Files.C82_options`, `Files.C82_disabled`, `Files.C82_enabled`, `Files.C82_roundtrip_partial`, `Files.C82_lost_fails`, `Files.C82_outfile_fails`, `Files.C82_fs`, `Files.C82_skipped`, `Files.C82_released`, `Files.C82_save_loses_fails`, `Files.C82_torn_fails`.

### C83 The cost of a lookup does not depend on the size of the store (partial)

`Model/Cost.lean`: `matchR`, `search` and `insertInternal` with a record of the nodes and rune pairs they look at; `C83_same` ties them to the model used everywhere else. On plain trees at most one child is entered per level and the others are left after one pair (`plain_cost`); siblings begin with different runes of the alphabet (`wide_of`). The exponential family is an induction over its depth.

Proved for keys without route patterns; C83_routes_fails and C83_exponential_fails show that patterns break the bound. The extra reads of the retriever loop on patterns are not counted.

Theorems: `Cost.C83_same`, `Cost.C83_once`, `Cost.C83_lookup`, `Cost.C83_up`, `Cost.C83_insert`, `Cost.C83_routes_fails`, `Cost.C83_exponential_fails`.

### C84 Reading while another goroutine sets a key (partial)

`Model/Steps.lean`: `insertInternal` and `split` as the list of trees after each assignment, the last being the result of C01 (`C84_final`). `Lemmas/Steps.lean` proves of every tree in the list that it is well formed and keeps all entries that do not extend the longest beginning shared by the key and the stored paths (`Near`); lookups are then compared through `query_at`.

Holds for lookups that part from the key before the node that is split (C84_apart), and for all lookups when nothing has to be split, as when a stored key is overwritten (C84_whole, C84_old_or_new, C84_overwrite). During a split it is false: split cuts the path of the node before it puts the lower half below it, so that a reader gets the value of another key, misses stored keys and finds keys never set (C84_disturbed_fails). Lookups are taken to run between two assignments of the writer; the Go memory model promises less.

Theorems: `Steps.C84_final`, `Steps.C84_apart`, `Steps.C84_whole`, `Steps.C84_old_or_new`, `Steps.C84_overwrite`, `Steps.C84_disturbed_fails`.

### C85 The memory behind a trie (proved)

`Model/Heap.lean`: cells, arrays and slice headers; `append`, `make`, `split`, `insertInternal`, `remove` and `Dup` as changes of them. `Heap.Holds` says that a list of records is in memory with separate arrays; every change keeps it (`insert_holds`, `remove_holds`, `write_holds`, `dup_holds`), leaving all other records alone. The calls are sequences of such changes (`Op.run_prims`), and readers find the tree (`read_holds`).

C85_history, C85_grow, C85_apart, C85_dup, C85_node, C85_removed. Path slices are values (the code never writes through them); evendeep.MakeClone returns an equal value sharing nothing.

Theorems: `Heap.C85_history`, `Heap.C85_grow`, `Heap.C85_apart`, `Heap.C85_dup`, `Heap.C85_node`, `Heap.C85_removed`.

### C86 Changing a trie while walking over it (partial)

`Heap.walk` in `Model/Heap.lean`: the loop reads the slice header once and each element when its turn comes; the callback is any function on memories. `Walked` relates the tree before, the tree after and the visits for callbacks that change only the visited node and below (`Local`); `walk_local` proves it of the memory by induction over the calls. `C86_skip_fails` computes the array that `remove` leaves behind.

Proved for callbacks that change only the visited node and what is below it: they are called exactly for the nodes of the tree at the end, in its order (C86_local), leave the rest alone (C86_apart) and come to an end unless they add nodes (C86_ends); instances are writing to the node (C86_write) and removing its children (C86_prune). Otherwise false: removing the visited leaf makes the walk pass over the next sibling and visit the last one twice (C86_skip_fails); removing siblings makes it visit removed nodes or nodes twice (C86_ghost_fails, C86_twice_fails); and a callback that adds a key below each visited node never ends (C86_endless, C86_sprout_fails).

Theorems: `Heap.C86_local`, `Heap.C86_apart`, `Heap.C86_ends`, `Heap.C86_write`, `Heap.C86_prune`, `Heap.C86_endless`, `Heap.C86_sprout_fails`, `Heap.C86_skip_fails`, `Heap.C86_ghost_fails`, `Heap.C86_twice_fails`.

### C87 Exporting does not change what is stored (partial)

`Model/MapRefs.lean`: maps at addresses; `submap`, `splitCompactKeys`, `GetM`, `GetR` and `To` as changes of the memory. `repM` says that a map in memory is a given nested map made of new maps, old references being opaque; `submap_rep` proves that each assignment keeps that and writes to new maps only, as long as the way does not lead through an old one (`Sep`). The contents then follow from C20.

Proved for exports with full paths when no entry that holds a map has an entry below it, and for all exports when no maps are stored (C87_getM_partial, C87_to_partial); GetR and the flat GetM never write (C87_flat). What the nested export holds: C87_nested. The maps it made can be written to (C87_own). Otherwise false: GetM, To and the export behind saving write the entries below a stored map into that map, so that reading changes the store (C87_getM_fails, C87_to_fails, C87_save_fails); GetM(path) also does it to maps with nothing below them because it drops components (C87_apart_fails); and stored maps are shared with the result (C87_shared_fails).

Theorems: `C87_getM_partial`, `C87_to_partial`, `C87_flat`, `C87_to_second`, `C87_nested`, `C87_own`, `C87_getM_fails`, `C87_to_fails`, `C87_save_fails`, `C87_apart_fails`, `C87_shared_fails`.

### C88 Several goroutines setting keys (partial)

`Model/Race.lean`: nodes in a memory, a goroutine as a program counter with its local variables, one step per access to a node (accesses to one node that follow each other without a write are one step). `Lemmas/RaceSolo.lean` proves what a goroutine alone does to the tree; `Lemmas/RaceStep.lean` that it does the same when others change only nodes it has finished with (`Own`, `Quiet`); `free_apart` that keys that are apart end in different nodes. The invariant of the world then says that memory is the initial one with each goroutine's own changes, so all finished worlds are equal, and one of them is the sequential one.

Proved when no key gets in the way of another: each replaces a value of its own or leaves a stored path where the others have already left it. Then all schedules end, without a panic (C88_ends), in the tree of the sequential execution (C88_same), so with all values (C88_values). Otherwise false, since Set takes no lock: a key can be lost (C88_lost_fails), a value can stay the old one (C88_value_fails), a key can come out under a path nobody set (C88_phantom_fails), and the program can panic (C88_panic_fails).

Theorems: `Race.C88_same`, `Race.C88_ends`, `Race.C88_values`, `Race.C88_lost_fails`, `Race.C88_value_fails`, `Race.C88_phantom_fails`, `Race.C88_panic_fails`.

### C89 Looking a key up while other goroutines set keys (partial)

`Model/RaceRead.lean`: the lookup as a program counter with the loops over children that are still running, one step per read of a field of a node, over the memory of C88. `Leads` in `Lemmas/RaceRead.lean` says that the lookup comes to an answer whatever memories it finds, as long as they agree with the tree on the nodes on its way (`Calm`); it is proved along the derivation `Node.PM` of the sequential lookup. `InvA` (`Lemmas/RaceReplace.lean`) is the invariant of replacing writers: the shape never changes and the memory holds the tree of those that have returned. `Lemmas/RaceBeside.lean` takes the invariant of C88 and shows that a writer at a node on the way replaces its value or passes over it; for an absent key, `Inv.calm_absent` shows that the node on the way keeps its path or is cut where the lookup leaves it anyway.

Proved when the writers replace values that are there, also of the key that is looked up and also several of them the same key (C89_replace), and when they set new keys that do not get in each other's way or in that of the lookup of a stored key (C89_beside); likewise the lookup of a key that is not there, beside writers whose keys share no branch with it, ends without a panic and finds nothing (C89_absent); C89_replaced says what the replacing writers leave, C89_alone that the lookup with a program counter is Query. Otherwise false, since lookups take no lock: a lookup can panic (C89_panic_fails), return a value only ever set under another key (C89_other_fails), find a key that was never set (C89_absent_fails), return the value of a key of a section as the section's own (C89_section_fails), and miss a key that is there all the time (C89_missed_fails).

Theorems: `Race.C89_replace`, `Race.C89_replaced`, `Race.C89_beside`, `Race.C89_absent`, `Race.C89_alone`, `Race.C89_panic_fails`, `Race.C89_other_fails`, `Race.C89_absent_fails`, `Race.C89_missed_fails`, `Race.C89_section_fails`.

### C90 Looking a key up while other goroutines remove keys (partial)

`Model/RaceRemove.lean`: lookups and removals as program counters over a memory in which the children of a node are an array and a length; `remove` moves one element per step. `Lemmas/RacePlan.lean` describes what the removals do to a node as a list of memories (`mems`) that depends only on how far each removal has come, and `Leads` (`Lemmas/RaceRemove.lean`) says that the lookup comes to an answer whatever it finds of these. `Spares` is the condition under which the loop over the children still meets the node to go to; `spares_sure` proves it from the way the elements move. The schedules of the `_fails` theorems are built in `Lemmas/RaceEnd.lean` for any trie that has the situation.

Proved when the goroutines remove from different nodes and not before the node to go to among its siblings (C90_kept); for any key, also one that is removed or not there, the lookup ends and gives the answer of the trie or nothing, if no only child on the way is removed (C90_safe, C90_below); a lookup begun after the removals gives the answer of the trie without the keys (C90_after). Otherwise false: whenever a sibling before the node is removed, and the node is not the last, there is a schedule on which the key is missed (C90_missed_fails); whenever an only child is removed, every lookup below its parent can return the value of the parent (C90_wrong_fails).

Theorems: `Prune.C90_kept`, `Prune.C90_safe`, `Prune.C90_below`, `Prune.C90_after`, `Prune.C90_missed_fails`, `Prune.C90_wrong_fails`.

### C91 Several goroutines removing keys (partial)

As C90. `Tidy` is preserved by the removals that have been made (`Upto` in `Lemmas/RaceAfter.lean`, by induction over the calls), and the memory at the end is read back into the tree that the removals one after the other give. `stray` computes the tree after two removals from one node have collided.

Proved when the goroutines remove from different nodes and each spares the ways of the others (C91_tidy, with C91_contents for the keys that are left). Otherwise false: whenever two of them remove children of one node, the first at or before the second, there is a schedule on which the second panics (C91_panic_fails, if its child is the last) or removes the child behind its own instead and reports success (C91_stray_fails); two that remove the same only child can remove its parent (C91_parent_fails).

Theorems: `Prune.C91_contents`, `Prune.C91_tidy`, `Prune.C91_panic_fails`, `Prune.C91_stray_fails`, `Prune.C91_parent_fails`.

### C92 Goroutines with stores of their own (partial)

`Model/RaceParts.lean`: goroutines with lists of calls, the steps of C88 and C90 in one memory. `Lemmas/RaceZone.lean`: a goroutine writes only to nodes below its own and to nodes that it makes, reads besides only the nodes above its own, which nobody writes, so its state is that of a run alone with as many steps (`runs_solo`). `Lemmas/RaceAlone.lean`: alone it is told what the calls one after the other give; since the allocator gives out other pointers than in the sequential model, trees are compared up to renaming of the pointers (`Node.ren`, `Lemmas/RaceRen.lean`).

Proved when the trie has a node for each of the parts, none above another, and the keys are strictly below these nodes (C92_parts; C92_answers: there is an answer for each call). Otherwise false: in an empty trie, one goroutine sets a key below a and another sets one below b; the second is told that its key is stored and then that it is not there (C92_empty_fails).

Theorems: `Parts.C92_parts`, `Parts.C92_answers`, `Parts.C92_empty_fails`.

### C93 Setting keys while others are removed (partial)

`Model/RaceParts.lean` as for C92, one call per goroutine. `Lemmas/RaceMix.lean`: the memory is at every moment that of the removals alone (C91), with other values at the nodes whose `Set` has got there (`over`, `Mixed`); `Finds` says that a `Set` comes to its node whatever the removals do meanwhile. `Lemmas/RaceCore.lean`: a tree with other values in its nodes (`Node.recore`), and that `Remove` and `Set` respect this. The schedules of the `_fails` theorems are given and run by the kernel.

Proved when every Set is for a key of its own that is in the trie, the removals are apart from each other, and the children on the way to a key that is set stand before the removed ones or at the end: the trie is the one of all calls one after the other (C93_replace). Otherwise false. A Remove panics, or takes all siblings with it and reports success, when a Set splits the node (C93_panic_fails, C93_wipe_fails). A removed key comes back, or a new one is lost, when a Set adds a child beside the removed one (C93_back_fails, C93_lost_fails). A Set for a stored key behind the removed one makes a second node, and the key keeps its old value (C93_twice_fails).

Theorems: `Parts.C93_replace`, `Parts.C93_panic_fails`, `Parts.C93_wipe_fails`, `Parts.C93_back_fails`, `Parts.C93_lost_fails`, `Parts.C93_twice_fails`.

### C94 Following remote databases and closing the store (partial)

`Model/RemoteWatch.lean`: two transition systems, the goroutines of etcd's `Watch` and those that run consul's plans; the client libraries by their documentation. `Steps` and `CMoves` list the steps; the counting theorems are invariants over sums over goroutines, the end of the consul goroutines is a measure that every step decreases by one.

Proved: etcd: every change is passed on exactly once per watch (C94_etcd_each), hence at most once if the provider was loaded once (C94_etcd_once_partial); after Close only the rest of the responses at hand is reported and no goroutine is made (C94_etcd_close_partial); a goroutine whose context is cancelled can end at once (C94_etcd_cancel), and no other ever ends (C94_etcd_ends). consul: after Close every goroutine ends after at most two steps, never waiting, and reports at most what it was about to report (C94_consul_close_partial, C94_consul_ends_partial), if loads are made without prefix and alternate with Close. False: two loads of an etcd provider report everything twice (C94_etcd_twice_fails); Close leaves its goroutine running in circles for ever, because a closed channel is always ready (C94_etcd_spin_fails); after cancelling, the watch remains and gathers events (C94_etcd_leak_fails); after two loads of a consul provider Close stops only the second plan (C94_consul_lost_fails), or both goroutines run the second plan and nobody the first (C94_consul_shared_fails); consul ignores the context (C94_consul_cancel_fails); Close ignores providers loaded with a prefix (C94_etcd_prefix_fails, C94_consul_prefix_fails). Changes between the return of Load and the beginning of the watch are reported to nobody (C94_etcd_gap_fails).

Theorems: `RemoteWatch.C94_etcd_each`, `RemoteWatch.C94_etcd_once_partial`, `RemoteWatch.C94_etcd_close_partial`, `RemoteWatch.C94_etcd_registered`, `RemoteWatch.C94_etcd_ends`, `RemoteWatch.C94_etcd_cancel`, `RemoteWatch.C94_etcd_twice_fails`, `RemoteWatch.C94_etcd_spin_fails`, `RemoteWatch.C94_etcd_prefix_fails`, `RemoteWatch.C94_etcd_gap_fails`, `RemoteWatch.C94_etcd_leak_fails`, `RemoteWatch.C94_consul_close_partial`, `RemoteWatch.C94_consul_ends_partial`, `RemoteWatch.C94_consul_lost_fails`, `RemoteWatch.C94_consul_shared_fails`, `RemoteWatch.C94_consul_cancel_fails`, `RemoteWatch.C94_consul_prefix_fails`.

### C95 Entries with a timer in a store (partial)

`Model/StoreTtl.lean`: the store with its trie as handle 0 of the transition system of C26. Every step of the store is made of steps of that system (`step_run`), so C26 gives the tree after an expiry, C19/C28 the exports, C27 the handlers.

Proved, for all executions: nothing else changes, in GetM, GetR and what Save selects (C95_export, C95_save, C95_store). The rest of the claim is false, and proved to be so in general: the expired key stays in every export, with nil as its value, and Save writes it as nil if it was modified (C95_export, C95_save); no handler is ever called by a timer (C95_silent); setting the key again calls the change handlers with old value nil and never the new handlers (C95_again, C95_store; C95_again_fails shows that after Remove it is the new handlers). Store.Close closes the peripherals only, so that everything after it, the timers included, goes on as if it had not been called (C95_close, C95_close_fails); closing twice closes the peripherals twice (C95_close_twice).

Theorems: `TStore.C95_export`, `TStore.C95_save`, `TStore.C95_again`, `TStore.C95_silent`, `TStore.C95_close`, `TStore.C95_store`, `TStore.C95_close_fails`, `TStore.C95_again_fails`, `TStore.C95_close_twice`.

### C96 Codecs that load and save files (partial)

`Model/CodecFiles.lean`: the methods on a disk that remembers which files are open; the libraries are arbitrary functions.

Proved: Load changes no file (C96_untouched), a missing file is an error (C96_missing), for json Load agrees with Unmarshal where that succeeds (C96_json_partial), for yaml where there is a document that is not a map (C96_yaml_partial), Save of yaml writes what can be read back (C96_save_partial). False: json accepts anything after the first document (C96_trailing_fails); yaml panics for every file that Unmarshal can read, because the nil map itself and not its address is given to the decoder (C96_yaml_fails); an empty file is an error for Load of yaml and none for Unmarshal (C96_empty_fails); toml, hjson, hcl and nestext never load (C96_none_fails); no file is ever closed (C96_open_fails); a Save that fails has emptied the file (C96_save_fails). The libraries are parameters; that yaml.v3 panics when it is given a nil map by value is taken from its source.

Theorems: `CodecFiles.C96_untouched`, `CodecFiles.C96_missing`, `CodecFiles.C96_json_partial`, `CodecFiles.C96_trailing_fails`, `CodecFiles.C96_yaml_fails`, `CodecFiles.C96_yaml_partial`, `CodecFiles.C96_empty_fails`, `CodecFiles.C96_none_fails`, `CodecFiles.C96_open_fails`, `CodecFiles.C96_save_partial`, `CodecFiles.C96_save_fails`.

### C97 An export beside goroutines that set keys (partial)

`Model/RaceExport.lean`: the walk with a program counter and the loops still running as a stack, beside the writers of C88. `Lemmas/RaceWalk.lean` is about any sequence of memories: if each node shows the walk, at every moment, the children and the key of the old tree and perhaps a new leaf (`Mild`), the walk puts into the map the entries in the order of the old tree, each stamped with the moment at which it was read (`Gets`, by induction over the tree). `Lemmas/RaceMild.lean` shows that the writers are of that kind (`mild_replace` from C88's invariant for replacing, `mild_beside` from C89's).

Proved where goroutines replace values, even of the same key (C97_replace), and where they set new keys without getting in each other's way and without cutting a path (C97_beside): the export ends, has the right keys, each once, and the entries are those of the trie at moments that follow one another. By itself it gives the map of GetM (C97_alone). False in general: a Set that cuts a path can put a key into the map that nobody ever set (C97_phantom_fails). The map as a whole need not be that of any one moment (C97_snapshot_fails). Modelled without prefix and options; reading or writing a string or slice is one step.

Theorems: `Race.C97_replace`, `Race.C97_beside`, `Race.C97_alone`, `Race.C97_snapshot_fails`, `Race.C97_phantom_fails`.

### C98 Handlers of a store when goroutines set keys at the same time (partial)

`Model/RaceStore.lean`: `Set` of the store as phases around the steps of C88 and C89: `Query`, `Trie.Set` with the read and the assignment of `data` as two steps, the handlers. The steps inside `Trie.Set` are a schedule of C88's world (`run_moves`), those inside `Query` a schedule of C89's (`Fine`, clause `ask`), so the invariants proved there apply; `Fine` (`Lemmas/RaceStore.lean`) says where a goroutine stands after a schedule. `Lemmas/RaceNew.lean` does the same for new keys, with the invariant of C88 and C89_absent in place of the replacing one.

Proved without conditions: every call that has returned is told once, with its key and value (C98_once). Proved where values are replaced, even of the same key: every call returns after finitely many steps of its own, and the old value told is one that the key had while the call was under way (C98_told). With different keys the old value is the one before (C98_distinct), and the copy agrees with the store (C98_mirror). Proved also for new keys that do not get in each other's way: every call returns, a new key is told as created if the value the lookup returns for it counts as nil, otherwise the old value is told (C98_apart), and the copy has the values of the trie (C98_copy). False when two goroutines set one key: the copy can end with the overwritten value (C98_mirror_fails), both can be told the same old value (C98_chain_fails), and both can be told that the key is new (C98_new_fails). Modelled without prefix and blanks in keys; the flag modified is left out; calling the handlers is one step.

Theorems: `Race.C98_once`, `Race.C98_told`, `Race.C98_distinct`, `Race.C98_mirror`, `Race.C98_apart`, `Race.C98_copy`, `Race.C98_mirror_fails`, `Race.C98_chain_fails`, `Race.C98_new_fails`.

### C99 Sizes whose number is written as in Go (partial)

The model of C22 (`Model/Bytes.lean`). The notations are the predicate `Number` of C101; the code is shown to cut off exactly what stands behind the number.

Proved with a unit (C99_kibi_partial, C99_kilo_partial), alone (C99_bare_partial), and as a decimal number of bytes (C99_bytes). False for hexadecimal numbers that end in e or b: the digit is taken for a unit or a suffix (C99_digit_fails), and with a unit behind it the digit e is lost whatever the number (C99_lost_fails). Numbers with a decimal point: C107.

Theorems: `Bytes.C99_kibi_partial`, `Bytes.C99_kilo_partial`, `Bytes.C99_bare_partial`, `Bytes.C99_bytes`, `Bytes.C99_digit_fails`, `Bytes.C99_lost_fails`.

## Disagreements between the code and what its documentation suggests

Each is a theorem (the `_fails` theorems) unless marked (reading only).

* `Get`'s found flag is false for a stored key that is a proper prefix of an earlier one; `Store.MustGet` then returns nil (C04, C45).
* `Has` answers true at positions that only exist because two keys share characters (C05); `Remove("app")` also removes `"apple"` (C07).
* After a split of a non-ASCII key the byte path of a branch is wrong, so `Key()` is wrong (C10).
* `SetComment`/`SetTag` on a path that is only partially matched annotate another entry (C14).
* The callback of `SetEx` is called once per recursion level (C15). `SetNode` ignores its tag argument (reading only). `Update` wipes the data first (C40).
* `GetM("")` loses data of branch entries, and with a prefix cuts keys or panics (C19); `GetM(p)` is wrong for paths of several components (C42), hence `To`/`GetSectionFrom` too (C56).
* After loading `{port: 1, ports: 2}` `Store.MustGet("port")` is 1 or nil, depending on the random iteration order of the map (C67).
* The README recipe for erasing a key on expiry also erases keys that begin with it, erases siblings after a split, and does nothing through a prefix view (C66).
* README "Easily Cutting" says that `SetPrefix` moves a store below the prefix; it moves nothing (C69). `GetM` leaves out data on keys that have keys below them, so they are not pasted (C69).
* `Locate` reports `found` = false on a partial match, its documentation says true (C71).
* `Set` on an existing key does not take the lock that `SetTTL` gave the entry; the first `SetTTL` on an entry races with readers and with another first `SetTTL` (C72).
* Overlapping `SetTTL`/`Close` can panic, wait for ever, or leave a goroutine behind (C73).
* The gob codec never returns bytes from `Marshal`, and reads every document but the first from the bytes of the first (C74).
* `UnmarshalEx` of hjson keeps only the last element of an array by default (C75). The dummy store ignores defaults and reports no errors (C77). `GetM(p)` on an empty store dereferences nil (C77).
* Keys that are not UTF-8 share one entry when they decode alike, and prefixes do not work with delimiters beyond ASCII, because `Join` writes one byte of the delimiter (C79).
* The HCL codec never reports an error on writing: floats and nil become `null`, such elements vanish from lists, and mixed lists, lists of maps and an empty list beside another one panic (C80).
* consul's single-key mode panics when the key is missing, its `WithPrefix` does nothing, and its meta data never reach a store; etcd's `WithPosition` alone reads a single key, and its limit cannot be set (C81).
* `Save` replaces the file by the modified entries alone, so everything that was loaded and not modified is lost; `SaveAs` ignores its file name (C82).
* Route patterns among the keys make a failing lookup try the pattern after the literal at every level: exponentially many nodes in the length of the path (C83).
* `split` shortens the path of a node before the lower half is put below it, and the trie has no lock: while `Set("apply")` runs, another goroutine reading the stored `apple` can be given the value of `applee`, and can miss or find keys wrongly (C84).
* A callback of `Walk` that removes the visited node makes the walk pass over the next sibling and visit the last one twice (C86): `remove` moves the elements of the array that the loop of `walk` still reads with the old length.
* `GetM`, `To` and saving put entries that lie below a stored map into that map: reading changes what is stored (C87).
* The second attempt of `To`, with `GetR` (radix/cvter.go:566-571), never finds anything that `GetM` has not found (`C87_to_second`).
* `Set` takes no lock. Goroutines that set different keys at the same time can lose a key or a value, store a key under a path that nobody set, and panic in `split` (radix/node.go:273) (C88).
* Lookups take no lock either. `Get` beside one `Set` of another key can panic with an index out of range (radix/node.go:357), return a value that was only ever set under another key, find a key that was never set, return the value of a key of a section as if it were the value of the section, and miss a key that is there all the time (C89).
* Nor does `Remove` take a lock. It moves the children behind the removed one (radix/node.go:190) while lookups loop over them: a lookup can miss a key that nobody removes, and a lookup below a node whose only child is removed can return the value of that node, also for keys that were never set (C90).
* Two `Remove` of children of the same node, or of the same key, can panic (slice bounds out of range, radix/node.go:190), or remove a third key and report success; two `Remove` of the same only child can remove its parent key too (C91).
* `Set` and `Remove` at the same time: when `Set` splits the node from which `Remove` takes a child, `Remove` panics or takes all its siblings as well; when `Set` adds a child to it, the removed key can come back or the new one be lost; a stored key behind the removed one can get a second node and keep its old value (C93).
* An export beside a `Set` that cuts a path can contain a key that nobody set: radix/node.go:285 shortens `pathS` before 287 makes the node a branch, and the walk reads one before and the other after. An export beside writers is in no case a snapshot (C97).
* An export beside a `Remove` can lack keys that nobody removes: radix/node.go:190 moves the children behind the removed one to the front while the loop at 588 is under way, and the loop skips one (`C103_missed_fails`). The last child is then visited twice, because the loop keeps the old length; in the map this cannot be seen.
* An export beside `Set` and `Remove` can give a map of no moment: a key that has been removed, together with a value that was set after the removal (`C106_snapshot_fails`).
* An export beside `Set` for a new key can miss the key and yet have a value that was set after `Set` returned for that key (`C111_snapshot_fails`).
* Delete handlers can be told wrongly when goroutines remove siblings at the same time: store.go:395 trusts the result of `RemoveEx`, whose slice operation at radix/node.go:190 may have cut another child. The handlers are told of a key that is still stored, or twice of the same key, and never of the one that went (`C104_stray_fails`); and as a search can end at the parent when its only child goes, a key can be told with the value of another (`C104_value_fails`).
* A `Set` and a `Remove` of one key at the same time can be told to the handlers in the wrong order (`C108_order_fails`), because the handlers are called after the trie has been changed (store.go:330 and 344, 394 and 398), and so that the same old value is told as removed and as replaced (`C108_twice_fails`). A key that is created because it was removed after the lookup at store.go:247 is told as changed, with a nil old value (`C108_new_fails`).
* Handlers can be told that a key is new that never gets into the trie: when a node above it is removed at the same time (`C112_below_fails`), or when two new keys become children of one node (`C112_beside_fails`; `append` at radix/node.go:304 reads the slice and writes it later).
* `Dup` beside `Remove` can copy a child twice and leave another one out, since the loop over the children keeps the old length while the slice is shifted (`C113_remove_fails`; radix/node.go:567); beside `Set` it can copy the data of a node without its flag (`C113_flag_fails`).
* `Walk` beside `Remove`, called by another goroutine, can call its callback twice for one node and not at all for a sibling that nobody removes (`C116_twice_fails`; radix/node.go:588), for the same reason.
* `Dump` beside `Set` can give a text that is not that of the trie at any moment: without a key whose `Set` has returned, and with a value that was set later (`C117_snapshot_fails`; radix/node.go:550). Beside `Remove` it can show a key twice and leave out a key that nobody removes (`C117_remove_fails`).
* `Dup` beside a `Set` that splits a node can give a copy with keys that nobody has ever set: the path is read before the split and the children after it (`C114_split_fails`; radix/node.go:560-567, 269-306).
* When two goroutines set the same key of a store, the handlers can be told in the other order than the values were stored, both can be told the same old value, and both can be told that the key is new (C98).
* The comment at radix/cvter.go:1521 allows numbers such as 0x99. Hexadecimal numbers that end in `e` or `b` give wrong sizes: `0x1e` is 1024⁶, `0x1ek` is 1024, `0x1b` is 1 (C99).
* `ParseDuration` accepts `9223372036854775808ns9223372036854775808ns` and gives 0: the sum wraps around before it is compared with the limit. `0.3333333333333333333h` is rounded up to 20 minutes (C100).
* `DurationFromFloat(1.001)` is 1.000999999s: the product is cut off and not rounded (C102).
* `1.001K` is 1000 bytes and `1.001MB` is 1000999, for the same reason (C107).
* `Remove` leaves the branches behind that the removed keys caused, so the tree does not shrink back (C64).
* `Walk(p)` starts at the parent of the entry unless p ends with the delimiter (C46).
* A lookup never returns when an entry's path ends with ':' (C34); route patterns match only some of what they describe (C33).
* Of two stored keys that fit a path the one set first answers: a literal set after a pattern is not readable; a literal set first hides the pattern for longer paths; two names for one position (`/u/:id`, `/u/:name/x`) make both unreachable (C62).
* Handlers get the loading flag inverted; views, merges and map loads call no handlers (C27). `Save` loses modified branch entries (C28).
* `Merge` of a store ignores the prefix of the view (C29); `Trie.Merge` misplaces deeper levels (C43). Loaded metadata is dropped for `ValPkg` maps (C29).
* Formatting of durations panics for some values, and parsing accepts overflowing sums (C23). `FromKibiBytes` wraps and panics on blanks (C22).
* `Op` text round trip fails (C24). The `Next` of the environment and flags providers is inverted (C44).
* `Load` from a stream provider reports an error although its pairs are stored, and a flatten option in front of a prefix option stays in effect (C52); `Save` after a load with prefix writes cut keys (C53).
* `Close` does not stop watchers started by a load with prefix, or whose goroutine has not begun; a cancelled watcher blocks later ones (C54).
* After `Close` the goroutine that follows an etcd server runs in circles (it receives from a closed channel); its watch outlives a cancelled context; a provider loaded twice reports everything twice; changes between the return of `Load` and the beginning of the watch are reported to nobody (`C94_etcd_gap_fails`). `Close` stops only the last of several plans of a consul provider, whose goroutines may all run the last plan and which ignores the context (C94).
* A watching store forgets keys that start with a deleted key, misses what happens between reading and watching, and after a load with prefix watched changes call no handlers and set no modified mark (C55).
* A change handler that writes its own key, even with the same value, recurses for ever: `Set` does not compare values before calling handlers (C58).
* The file provider passes its changes by value while their methods have pointer receivers, so `applyExternalChanges` ignores them; their operation is never set either (C65).
* With consul, values that were read as strings turn into byte slices (and count as modified, with handlers called) although nobody has changed them; several changes in one answer lose all but the last (C57).
* Consul: mixed changes lose removals and single-key removals are not reported (C37).
* A TTL that expired before `Close` still clears the entry, views have separate TTL objects, and TTL on a node survives a split (C26).
* `Load` of the yaml codec panics for every map, that of the json codec ignores what follows the first document; neither closes its file (C96).
* An expired entry stays in exports and in what `Save` writes, as nil; no handler is told; setting it again counts as a change, not as new. `Store.Close` does not stop timers, although the documentation of `SetTTL` says so (C95).
* A store and its view can be loaded at once; a copy made while loading never loads (C49). `Dump` hides the root's data and marks non-ASCII keys (C50); `StartsWith` depends on unrelated keys (C51).
* `MarshalJSON` writes the delimiter unescaped and quotes the prefix by Go's rules, so for some stores the result is not JSON; that of a trie alone never is (C61).
* `GetInt8` … `GetUint32` cut off numbers that do not fit without an error (C21). Derived stores and copies have no handlers (C59). Single HCL blocks inside repeated blocks stay lists (C60).
* (reading only) `storeS.RecursiveMode` (store.go:488) calls itself for ever;
  `Next` of consul returns raw bytes where `Read` returns strings.

## Trusted base

* The Lean 4.33.0 kernel, and the axioms `propext`, `Quot.sound`, `Classical.choice` (per theorem below). No `sorry`, no own axioms,
  no `native_decide`, no `bv_decide`, no `unsafe` or `implemented_by`. `decide +kernel` is evaluated by the kernel.
* The correspondence between the Go text and the model is by reading; every model definition cites its lines.

### Code that is modelled

| file | modelled |
|---|---|
| radix/node.go | insertInternal, split, insertAsLeaf, matchChildren, extractor, search, matchR, remove, walk, Dup, endsWith, startsWith, dumpR, Key, SetData, SetEmpty, SetComment, SetTag, SetModified, ToggleModified, ResetModified |
| radix/trie.go | newTrie, poolGet, deferPoolGet, UsePool, getMatchCtx, putBack, String, MarshalJSON, ttls (Add, run, Close), SetTTL, SetTTLFast, dupS, join1, Join, Insert, Set, SetEx, SetNode, SetEmpty, Update, SetComment, SetTag, Merge, Search, Locate, Has, HasPart, Remove, RemoveEx, MustGet, Get, GetEx, GetDesc/Tag/Comment, Query, search, SetDelimiter, Walk, Dup, Dump, StartsWith, EndsWith |
| radix/load.go | Prefix, WithPrefix, WithPrefixReplaced, SetPrefix, RecursiveMode, N, R, BR, loadMap, loadMapByValueType |
| radix/cvter.go | GetR, GetM, To, GetSectionFrom, splitCompactKeys, submap, put, putKeys, the options, all typed getters (generically), FromKibiBytes, FromKiloBytes |
| store.go | New and its options, String, MarshalJSON, Dup, N, R, BR, dupS, MustGet, Get, Set, Merge, setKV, tryOnSet, tryOnDelete, Remove, RemoveEx, Has, WithPrefix, WithPrefixReplaced, SetPrefix |
| load.go | WithinLoading, newLoader, LoadOpts, Load, tryLoad, Save, SaveAs, loadMapDedicated, loadMapAny, loadMap, loadMapByValueType, privateSetter, startWatch, applyExternalChanges, applyChanges, trySave |
| codecs/json, yaml, toml, hjson, nestext, gob, all | New, Marshal, Unmarshal (around arbitrary libraries), the registry; of hjson also UnmarshalEx, decode |
| internal/times/time.go | SmartParseTime, MustSmartParseTime, AddKnownTimeFormats (around an arbitrary time.Parse) |
| dummy.go | the readers |
| codecs/hcl | Unmarshal, flattenHCL (behind the external parser), ctyValue, fill, Marshal (before the external printer) |
| op.go | UnmarshalText, MarshalText, Marshal, Has |
| internal/cvt, internal/ctx, internal/times/dur.go | all functions (Normalize without its worker callback; shortDurSimple not) |
| internal/times/integers.go | the functions for integers |
| providers/maps | New |
| providers/fs | New, ReadBytes, Write |
| providers/file | New and its options, ReadBytes, Write; Watch, watchRunner, Close (as a transition system), changeS and what the loop reports |
| providers/env, providers/flags | prepare, Count, Keys, Next, Read |
| providers/consul, providers/etcd | NormalizeKey, the change objects (Set, Next, Has); the options, New and Read in all modes, Watch of both (of consul in the recursive mode), and their goroutines and Close as transition systems |

### Code that is not modelled, and simplifications

* Logging, and data races on the tree (except between the assignments of `Set`, C84, between several calls of `Set`, C88, between an export and `Set` or `Remove` or both, C97, C103, C106 and C111, between `Dup` and `Set` or `Remove`, C113 to C115, between `Walk` and these, C116, between `Dump` and these, C117 and C118, between lookups and `Set`, C89, between lookups and several calls of `Remove`, C90, C91 and C104, between sequences of calls of all three in different parts of a trie, C92 and between `Remove`, `Set` and lookups, C93, C105, C108 to C110 and C112); every call is atomic except in the TTL model, where calls, expiry and goroutine steps interleave, in the models of the loading flag (C49), of the lock of a node (C72) of the TTL object (C73) and of the pools (C78). These models are sequentially consistent.
* Handlers with state of their own, and handlers that call back other functions than `Set`, `Remove` and readers (C58 models those). The parent pointer of a store is taken to be nil. The network clients, and what fsnotify reports.
* evendeep: `MakeClone` and `Copy` return an equal value sharing nothing; the converters of the typed getters are arbitrary functions.
* The `children` slices are values, except in C85 and C86, which justify that; the `path` slices are values everywhere (the code never writes through them).
* C88: memory is sequentially consistent; the reads of a node at radix/node.go:206-219 are one step, those at 269-281 too; new nodes are never at an address in use; `s.path[:pos]` of a path that has become shorter is the whole path (in Go it can also be what lies behind it in the array).
* Maps are values, except in C87, where they are references; the other theorems about exports are stated for values without maps.
* The libraries behind the codecs, `time.Parse`.
* `strconv.ParseFloat` (only reached by sizes with a decimal point) is modelled for digits with a point, as the correctly rounded value, and opaque for other texts; `strconv.ParseUint` with base 0 is modelled.
* `strings.ToLower`/`ToUpper` are arbitrary functions on names. Strings are valid UTF-8 (except in C79).

### Axioms of each property theorem (`#print axioms`)

* none: `CodecFiles.C96_none_fails`, `CodecFiles.C96_untouched`, `Codecs.C74_gob_fails`, `Codecs.C74_gob_partial`, `Codecs.C74_gob_stream`, `Codecs.C74_pretty_fails`, `Codecs.C74_read_back`, `EnvProv.C44_position_ignored`.
* `propext`: `Bytes.C22_blanks`, `C11_reads`, `C11_writes`, `C21_stop`, `C30_empty_panics`, `C43_nil_panics`, `C44_options`, `CodecFiles.C96_empty_fails`, `CodecFiles.C96_json_partial`, `CodecFiles.C96_missing`, `CodecFiles.C96_open_fails`, `CodecFiles.C96_save_fails`, `CodecFiles.C96_trailing_fails`, `Codecs.C74_errors`, `Codecs.C74_repeatable`, `Codecs.C74_table`, `Ctx.C25_nextName`, `Ctx.C25_withValues`, `Dur.C23_roundtrip_fails`, `EnvProv.C44_next_fails`, `Etcd.C55_prefix_silent`, `FileWatch.C65_each`, `FileWatch.C65_order`, `Files.C82_skipped`, `Hcl.C60_option`, `HclMarshal.C80_drop_fails`, `HclMarshal.C80_error_fails`, `HclMarshal.C80_null_fails`, `HclMarshal.C80_panic_fails`, `Heap.C86_ghost_fails`, `Heap.C86_twice_fails`, `Hjson.C75_values`, `Loading.C49_store`, `Loading.C49_views_fails`, `NodeLock.C72_first_fails`, `ReadModes.C81_meta_lost_fails`, `Remote.C32_prepend`, `RemoteWatch.C94_consul_shared_fails`, `Steps.C84_final`, `Store.C27_silent_views`, `Store.C28_withinLoading`, `Store.C29_load_nested`, `Store.C36_other`, `Store.C45_mustGet_get`, `Store.C48_plain`, `Store.C58_fuel`, `Store.C58_run`, `Store.C58_sequential`, `TtlRace.C73_panic_fails`.
* `Quot.sound`, `propext`: the remaining 110 theorems of `MANIFEST.json`.
* `Classical.choice`, `Quot.sound`, `propext`: the remaining 546 theorems of `MANIFEST.json`.
