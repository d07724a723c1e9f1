"""Source of /verif/properties.jsonl: edit here, run `python3 tools/props.py`."""
import json, os
P = []
def p(id, title, statement, quantifier, why, anchors):
    P.append(dict(id=id, title=title, statement=statement, quantifier=quantifier, why_tests_cant=why, anchors=anchors))

# ---------------------------------------------------------------- text and key encodings
p("C01", "base32 text decodes back to the same bytes",
  "For every byte string x, decoding to_base32(x) with max_len = 8*len(x) succeeds and yields exactly the bits of x.",
  "every byte string, of every length",
  "a property test samples a few hundred short strings; padding behaviour differs for each length modulo 5 and the claim ranges over all of them",
  ["src/base32.rs:from_base32", "src/base32.rs:to_base32", "src/base32.rs:pop_u5_from_bitvec"])
p("C02", "base32 text is canonical: alphabet, length and injectivity",
  "to_base32(x) has exactly ceil(8*len(x)/5) characters, all taken from a-z2-7, and different byte strings have different texts.",
  "every byte string and every pair of byte strings",
  "injectivity is a statement about all pairs",
  ["src/base32.rs:to_base32"])
p("C03", "from_base32 accepts exactly the base32 alphabet, ignoring case, and never panics",
  "from_base32(s, m) succeeds if and only if every byte of s is in [a-zA-Z2-7]; upper and lower case decode the same; on success the result has min(5*len(s), m) bits.",
  "every string and every max_len",
  "acceptance of an input language is a claim about all strings",
  ["src/base32.rs:from_base32"])
p("C04", "database key encoding round-trips and from_db_key accepts exactly its image",
  "from_db_key(as_db_key(k)) = k for every key; from_db_key(b) succeeds iff b is the byte 1 followed by exactly 32 bytes, and then as_db_key gives b back; the empty string, an unknown first byte and a wrong length give the three distinct errors, and nothing panics.",
  "every key and every byte string",
  "the rejected inputs are infinitely many",
  ["src/key.rs:Key::as_db_key", "src/key.rs:Key::from_db_key"])
p("C05", "a printed key is 53 ASCII characters and parses back to the exact same key",
  "as_user_key(k) is 'b' plus 52 base32 characters; parsing it as a Keyish gives the exact-key form holding as_db_key(k); distinct keys print differently.",
  "every 32-byte hash and every pair of them",
  "2^256 keys",
  ["src/key.rs:Key::as_user_key", "src/keyish.rs:parse_from_base32"])
p("C06", "parsing a key or ref argument is total and classified",
  "Keyish::from_str never panics. A string with a '/' is always a ref, split at the first '/' (empty left part: local ref). Any other string is Empty if empty, Invalid if not ASCII, UnknownPrefix if it does not start with 'b', Invalid if a later character is outside the base32 alphabet, an exact key if at least 52 base32 characters follow the 'b', and a prefix search otherwise.",
  "every string",
  "totality over all strings",
  ["src/keyish.rs:Keyish::from_str"])
p("C07", "an abbreviated key denotes exactly the keys whose text begins with it",
  "For a string s of 'b' followed by fewer than 52 base32 characters, the byte range it parses to contains the database encoding of a key k if and only if as_user_key(k) begins with s, ignoring the case of the characters after the 'b'.",
  "every abbreviation and every key",
  "bit-level carry when computing the end of the range misbehaves only on special patterns",
  ["src/keyish.rs:parse_from_base32", "src/ds/sqlite.rs:raw_between"])
p("C08", "canonicalize resolves an abbreviation iff it is unambiguous",
  "In a store whose keys were all written by put, canonicalize of an abbreviation returns Ok(k) iff k is the only stored key whose text begins with it, NotFound iff there is none, and otherwise Ambiguous listing exactly the matching stored keys.",
  "every store reachable by put, every abbreviation",
  "ranges over all store contents and prefixes",
  ["src/ds/mod.rs:DataStore::canonicalize", "src/keyish.rs"])
p("C09", "the full printed key of a stored object never resolves",
  "canonicalize of the full text of a key decodes the bytes stored under it as a key: for every object stored by put_obj this is the error UnknownHashId(0xa3), and for an absent key a panic. (One would expect it to return the key.)",
  "every store and every stored object",
  "a test shows one failing key; the claim is that no stored object can ever be resolved this way",
  ["src/ds/mod.rs:DataStore::canonicalize"])
p("C10", "which key a text of full length or more denotes",
  "A base32 key text of 53 or more characters denotes the key k iff its first 52 characters are those of k's own text (ignoring case) and the 53rd agrees with it in its top bit; whatever follows is ignored, so every over-long text is accepted. (One would expect over-long texts to be rejected.)",
  "every string",
  "quantifies over all over-long inputs",
  ["src/keyish.rs:parse_from_base32", "src/base32.rs:from_base32"])
# ---------------------------------------------------------------- data store
p("C11", "stored data is immutable and stays readable",
  "Once raw_put(key, v) made raw_get(key) return v, raw_get(key) returns v after every further sequence of data-store calls that does not roll back past that put; a second raw_put for the key with other bytes is ignored.",
  "every store state and every sequence of store operations",
  "all histories",
  ["src/ds/sqlite.rs:raw_put", "src/ds/sqlite.rs:raw_get"])
p("C12", "put/get is content addressed and idempotent",
  "put(d) returns hash(d); get(hash(d)) then returns d unless a different byte string with the same hash was put before; putting d again changes nothing.",
  "every byte string, every store reachable by puts",
  "all contents and all earlier puts",
  ["src/ds/mod.rs:DataStore::put", "src/ds/mod.rs:DataStore::get"])
p("C13", "raw_exists agrees with raw_get, and never trips its assertion",
  "raw_exists(k) returns true iff raw_get(k) succeeds, in every reachable store; the count it asserts on is 0 or 1.",
  "every reachable store and every key",
  "uniqueness of rows is an invariant over histories",
  ["src/ds/sqlite.rs:raw_exists", "src/ds/sqlite.rs:raw_get"])
p("C14", "raw_between returns exactly the stored keys in the half-open range",
  "raw_between(start, end) lists, without duplicates, exactly the stored keys k with start <= k and (if end is given) k < end in byte order.",
  "every reachable store, every start and end",
  "the existing property test samples it",
  ["src/ds/sqlite.rs:raw_between"])
p("C15", "HEAD and other state keys are last-write-wins and independent",
  "After any sequence of raw_put_state calls raw_get_state(k) is the last value written for k, or none; get_head after put_head(h) is h; no other operation changes it.",
  "every sequence of store operations",
  "all histories",
  ["src/ds/sqlite.rs:raw_put_state", "src/ds/sqlite.rs:raw_get_state", "src/ds/mod.rs:get_head", "src/ds/mod.rs:put_head"])
p("C16", "the reflog is an append-only log per (ref, remote)",
  "After any history reflog_walk(name, remote) lists exactly the keys pushed for that pair, newest first; reflog_get is its first element, NotFound if none was pushed; pushes to other names or remotes (no remote being different from every remote) do not affect it.",
  "every sequence of store operations, every name and remote",
  "all histories; NULL comparison subtleties in SQL",
  ["src/ds/sqlite.rs:reflog_get", "src/ds/sqlite.rs:reflog_push", "src/ds/sqlite.rs:reflog_walk"])
p("C17", "transactions: rollback restores, commit persists, a crash keeps the last commit",
  "For every history of begin, commit, rollback, crash and data operations, what a fresh connection sees is exactly the state produced by the operations of committed transactions and of calls outside any transaction, in order.",
  "every history of operations and crash points",
  "all interleavings of crash points with operations",
  ["src/ds/sqlite.rs:begin_trans", "src/ds/sqlite.rs:commit", "src/ds/sqlite.rs:rollback", "src/ds/mod.rs:Transactional"])
p("C18", "the set of stored objects does not depend on the order of puts",
  "Performing the same puts in any order gives stores that answer every get, exists and range query alike, if no two of the byte strings collide.",
  "every list of byte strings and every permutation of it",
  "factorially many orders",
  ["src/ds/mod.rs:put", "src/ds/sqlite.rs:raw_put"])
# ---------------------------------------------------------------- objects
p("C19", "object serialisation is invertible",
  "Decoding the CBOR encoding of any object gives back its data, its keys in the same order and its type; so two different objects never have the same encoding. Every encoding starts with byte 0xa3. An encoding that was cut short, or to which bytes were appended, is rejected.",
  "every object (data and key lists of any length below 2^64)",
  "length headers change form at 24, 2^8, 2^16, 2^32",
  ["src/object.rs:Object", "src/ds/mod.rs:get_obj", "src/ds/mod.rs:put_obj"])
p("C20", "get_obj returns the object put by put_obj",
  "If put_obj(o) returned k then get_obj(k) returns o in that store and every later one, absent a hash collision.",
  "every object, every reachable store, every later history of puts",
  "all histories",
  ["src/ds/mod.rs:get_obj", "src/ds/mod.rs:put_obj"])
p("C21", "directory and file entries survive conversion to and from objects",
  "Converting an FSItem to an object and back gives the same size, kind, child names and child keys; an item with a child name that is not UTF-8 is refused with a serialisation error rather than stored wrongly.",
  "every FSItem",
  "all child lists and names",
  ["src/dir.rs:FSItem", "src/dir.rs:TryInto<Object> for FSItem", "src/dir.rs:TryInto<FSItem> for Object"])
p("C22", "a commit reads back with its tree, message and sorted parents",
  "commit_tree(tree, parents, attrs) followed by Commit::from_key gives the same tree, message and extra attributes (in some order), and the parents as a sorted permutation of those given; so the order in which parents are given is irrelevant.",
  "every tree key, parent list and message",
  "all parent lists and messages",
  ["src/commit.rs:commit_tree", "src/commit.rs:Commit::from_key"])
p("C23", "an object with an unknown type name decodes as Unknown, not as an error",
  "For every type name other than the known ones, an encoded object carrying it decodes to the same data and keys with type Unknown; reading it as file data panics instead of returning wrong bytes.",
  "every type name and object",
  "forward compatibility with all future names",
  ["src/object.rs:ObjType", "src/file.rs:read_data"])
# ---------------------------------------------------------------- file contents
p("C24", "file contents read back exactly as they were put, except in one case",
  "If put_data(reader) returns a key then, absent hash collisions, read_data of that key yields the bytes the reader delivered, or these without a prefix of at least 32768 bytes; the latter exactly when at the end of the stream keys are waiting on the fifth level of the chunk tree and none on the fourth. Contents of less than 32768 bytes always read back exactly, and for every gear table with an even and an odd entry there is a content of 32768 bytes that reads back as the empty file.",
  "every byte string, every way the reader splits it into reads, every chunking outcome",
  "the failing inputs have density about 2^-42; random tests never reach them",
  ["src/file.rs:put_data", "src/file.rs:read_data"])
p("C25", "the key of a file depends only on its bytes if no read returns more than 32768 of them",
  "Two readers delivering the same bytes in pieces of at most 32768 bytes produce the same key, the same stored objects and the same outcome. Larger pieces can change the key: for every gear table with an even and an odd entry there is a content of 32769 bytes with different keys when read at once and byte by byte.",
  "every byte string and every pair of read schedules",
  "all schedules",
  ["src/file.rs:put_data"])
p("C26", "chunk and tree node sizes are bounded",
  "Every blob put_data writes other than the last one has at least 32768 bytes; every tree node written while streaming has between 1 and 512 keys.",
  "every input and read schedule",
  "all inputs",
  ["src/file.rs:put_data"])
p("C27", "interrupted reads are invisible and failing reads fail",
  "Inserting any number of Interrupted results into a read schedule changes neither the key nor what is stored; if the reader fails with another error put_data returns that error.",
  "every schedule and every place an interruption or error can occur",
  "all error positions",
  ["src/file.rs:put_data"])
p("C28", "storing the same content twice stores nothing new",
  "Running put_data again with the same read schedule on the resulting store returns the same key and leaves every stored row unchanged.",
  "every input, every store",
  "all inputs and prior contents",
  ["src/file.rs:put_data", "src/ds/sqlite.rs:raw_put"])
# ---------------------------------------------------------------- directories
p("C29", "a stored directory tree is restored by fetch",
  "put_fs_item of a directory followed by get_fs_item into a fresh location recreates every file with the same relative path and contents and nothing else. (Empty directories are not recreated; files hit by C24 are excepted.)",
  "every directory tree, every depth",
  "all trees",
  ["src/dir.rs:put_fs_item", "src/dir.rs:get_fs_item"])
p("C30", "fetch never overwrites or deletes an existing file",
  "Whatever the object, the destination and the outcome of get_fs_item (success, error or panic), every file that existed before has the same contents afterwards and no directory disappears.",
  "every filesystem, store, key, destination and failure point",
  "all states and failure points",
  ["src/dir.rs:get_fs_item"])
p("C31", "fetch writes only below its destination",
  "For objects stored by put_fs_item, get_fs_item creates nothing outside the destination path except its missing parent directories. For other objects it can: a child name may be absolute or contain '..'.",
  "every tree, every destination",
  "all trees and names",
  ["src/dir.rs:get_fs_item"])
p("C32", "walking a stored tree lists the same paths as walking the directory it came from",
  "walk_fs_items of the key returned by put_fs_item lists exactly the relative paths, with the same file/directory flags, that walk_real_fs_items lists for the same directory and filter.",
  "every directory tree and filter",
  "all trees",
  ["src/dir.rs:walk_fs_items", "src/dir.rs:walk_real_fs_items", "src/dir.rs:put_fs_item"])
p("C33", "excluded paths and the database folder are never stored",
  "No path that the filter rejects, nor anything below it, appears in the stored tree; with the filter built by make_filter_fn this includes the database folder and every path matching an exclude pattern; every path all of whose ancestors are accepted does appear.",
  "every tree, exclude list and database location",
  "all trees and patterns",
  ["src/filter.rs:make_filter_fn", "src/dir.rs:put_fs_item"])
p("C34", "directories get equal keys iff they have equal contents listed in the same order",
  "Two directories whose accepted entries have the same names, kinds and contents and are listed in the same order give the same key, wherever they are and whatever their inodes, times and excluded entries. The listing order matters: two listings of the same two files give different keys for every hash function without collisions. Conversely, directories in one store with the same key have the same accepted files, contents, directories and listings.",
  "every pair of directory trees",
  "listing order is chosen by the OS",
  ["src/dir.rs:put_fs_item"])
p("C35", "unsupported file types are never stored silently",
  "If an accepted entry is neither a regular file nor a directory, put_fs_item does not return a key and walk_real_fs_items returns an error.",
  "every tree containing such an entry anywhere below accepted directories",
  "all positions in all trees",
  ["src/dir.rs:put_fs_item", "src/dir.rs:walk_real_fs_items"])
p("C36", "checkout touches only what it must",
  "Whatever the outcome of checkout_fs_item, nothing outside the destination changes, and neither does an entry that the filter rejects (such as the database folder) in a directory of the tree, unless the tree has an entry of this name. Outside the one directory hard-coded in checkout_fs_item nothing is removed; there it either leaves all files as they are or it truncates (or creates) exactly one file of the tree and panics.",
  "every filesystem, tree and path",
  "all states",
  ["src/dir.rs:checkout_fs_item"])
p("C37", "a successful checkout makes the working tree equal the stored tree",
  "If checkout_fs_item returns Ok, every file of the stored tree has exactly the stored contents, every directory of it is there, and none of these directories contains another regular file or directory that the filter accepts; nothing outside the destination has changed.",
  "every filesystem, tree and filter",
  "all states",
  ["src/dir.rs:checkout_fs_item"])
# ---------------------------------------------------------------- commits, refs, CLI
p("C38", "commit records the working tree on the ref with the old head as parent",
  "After a successful commit command, the ref's newest entry is a commit whose tree is the snapshot just stored, whose message is the one given, whose parents are exactly the ref's previous newest entry (none if the ref was new); HEAD and all other refs are unchanged.",
  "every repository state, tree, ref name and message",
  "all states",
  ["src/main.rs:commit_cmd", "src/commit.rs:commit_tree"])
p("C39", "a ref's history is a linear chain of commits, and log lists it newest first",
  "Starting from no repositories, after any sequence of commands (other than ref update and debug reflog-push, which store arbitrary keys), kills and file edits, the entries of every local ref, newest first, are commits each of which has the next as its only parent, the oldest having none; and a log of the ref that succeeds prints exactly these, in this order.",
  "every sequence of commands over any refs and repositories",
  "unbounded histories",
  ["src/display.rs:log_obj", "src/main.rs:log", "src/main.rs:commit_cmd"])
p("C40", "no dangling references, at any moment",
  "In every state reachable by commands, including after every single write of a command, each key listed in a stored object and each reflog key is present in the store.",
  "every command history and every write prefix (crash point, also without a transaction)",
  "all crash points of all histories",
  ["src/file.rs:put_data", "src/dir.rs:put_fs_item", "src/commit.rs:commit_tree", "src/main.rs"])
p("C41", "a failing or panicking command leaves the repository database unchanged",
  "If a command other than init ends in an error or a panic, at whatever point and for whatever reason, the durable objects, refs and HEAD are exactly those from before. (Conversely, a command whose COMMIT fails exits with success although nothing was kept.)",
  "every command, state and failure point",
  "all failure points",
  ["src/main.rs:main"])
p("C42", "a command is atomic under crashes",
  "If the process is killed at any moment during a command (other than init), the durable database equals the one before the command or the one after it.",
  "every command, state and crash point",
  "all crash points",
  ["src/main.rs:main", "src/ds/sqlite.rs"])
p("C43", "no command ever loses or alters stored objects or ref history",
  "After every sequence of commands each object stored before is still stored with the same bytes and each ref's earlier entries are still there, in order.",
  "every command history",
  "all histories",
  ["src/main.rs"])
p("C44", "init preserves existing data and sets HEAD to master",
  "After init HEAD is master; running it on an existing repository keeps all objects and refs. (It does reset HEAD.)",
  "every repository state",
  "all states",
  ["src/main.rs:init"])
p("C45", "read-only commands do not change the database",
  "fetch, show, log, ref log, debug pretty-print, walk-tree, walk-fs-tree, reflog-get and get-head leave objects, refs and HEAD unchanged, whatever their outcome.",
  "every state and argument",
  "all states",
  ["src/main.rs"])
p("C46", "status and compare never move a ref or HEAD",
  "status and compare may store objects but leave HEAD and every ref unchanged and keep every stored object.",
  "every state and argument",
  "all states",
  ["src/main.rs:status", "src/main.rs:compare"])
p("C47", "checkout-head changes HEAD only when the working tree is reported clean, and nothing else",
  "checkout-head sets HEAD to the given name iff the comparison with the current head returns an empty result; refs and stored objects are kept in any case.",
  "every state and argument",
  "all states",
  ["src/main.rs:checkout_head"])
p("C48", "the repository found is the nearest one",
  "find_db_folder returns the database path in the nearest ancestor of the current directory that contains it, and none iff no ancestor does.",
  "every directory depth and every set of existing paths",
  "all depths",
  ["src/main.rs:find_db_folder"])
# ---------------------------------------------------------------- diff, cache, display
p("C49", "comparing two stored trees reports exactly the differences",
  "compare of two stored trees panics iff a path of the second is missing in the first; otherwise it lists as added exactly the paths only in the first, as modified exactly those in both with different keys, and nothing as deleted. For trees stored from directories: a file in both is modified iff its contents differ, a file against a directory is modified, and a directory with any reported difference below it is modified.",
  "every pair of stored trees",
  "all pairs of trees",
  ["src/diff.rs:compare"])
p("C50", "comparing the working tree reports exactly the differences",
  "compare of a directory with a stored tree panics if a stored path is missing; otherwise, with a faithful cache and the directory as current directory, it lists as added exactly the new paths, as modified exactly the files whose contents differ from the stored ones (or which replace a directory), and nothing for a directory replacing a file. With another current directory, a new file that is not found relative to it makes compare fail.",
  "every tree, stored tree, cache",
  "all states",
  ["src/diff.rs:compare", "src/dir.rs:hash_fs_item"])
p("C51", "comparison results are deterministic",
  "The lists returned by compare are sorted by path without duplicates and, for stored trees, and for directories with a faithful cache, do not depend on hash-map iteration order. (With a cache in which two files share inode, mtime and size they do: counterexample.)",
  "every pair of inputs and every iteration order",
  "hash iteration order is random per run",
  ["src/diff.rs:compare"])
p("C52", "simplify hides exactly what is inside an added or deleted directory",
  "For a sorted result, simplify keeps an added (deleted) path iff no other listed added (deleted) path is a proper ancestor of it, keeps the order, and leaves modified alone.",
  "every comparison result",
  "all lists of paths",
  ["src/diff.rs:simplify"])
p("C53", "a patch shows every change with bounded context",
  "A line of the line diff appears in a hunk iff a changed line lies at most 5 lines after or 3 lines before it; hunks list those lines in order, are maximal runs, and building them never panics. create_diff_patch_result gives exactly one patch of that form for each added, deleted and modified file; a binary added or deleted file is an error. Between two stored directories it patches exactly the files that are new or have other contents.",
  "every line diff, diff result and pair of stored directories",
  "all diffs",
  ["src/diff.rs:patch_from_file_string", "src/diff.rs:create_diff_patch_result"])
p("C54", "hunk headers count the lines of the hunk",
  "The line counts of a hunk header are those of the hunk without its last line, so at least one of the two is too small in every hunk of a modified file; the start lines are right; for whole added or removed files both counts are right.",
  "every line diff",
  "claim that no hunk at all is right",
  ["src/diff.rs:patch_from_file_string"])
p("C55", "line statistics count newlines and changed lines of files only",
  "For an added or removed file the statistic is its number of newline bytes; for a modified file the number of removed and added lines of the line diff; added directories contribute nothing. Comparing stored snapshots, a directory reported as modified makes the computation panic.",
  "every comparison result of stored trees",
  "all results",
  ["src/diff.rs:line_stat", "src/diff.rs:line_ct"])
p("C56", "cache entries are keyed by exactly inode, mtime and size, and never overwritten",
  "cache.get after cache.put with the same triple returns the first key put for it; a different triple is never affected.",
  "every triple and every history of cache operations",
  "all histories and collisions of the byte encoding",
  ["src/cache.rs:Cache::get", "src/cache.rs:Cache::put", "src/cache.rs:SqliteCache"])
p("C57", "hashing a file gives the key put_fs_item would store, while the cache is sound",
  "Without a cache entry for the file's inode, mtime and size, hash_fs_item of a regular file returns the result of put_fs_item and stores the same objects; with an entry it returns the cached key and stores nothing. So along any history of hashings from an empty cache in which files with equal triples have equal contents, every key returned is put_fs_item's and all its objects are stored. (Without that condition it is false: a stale entry wins.)",
  "every file, store, cache, failing write and history of hashings over changing file systems",
  "all cache states and histories",
  ["src/dir.rs:hash_fs_item", "src/dir.rs:put_fs_item"])
p("C58", "log follows the parent with the smallest key",
  "log of a key succeeds with a given output iff following first stored parents from it gives a chain of commits, ending in one without parents, each displayed relative to its own first parent, in this order. The first stored parent is the one with the smallest key among those given, not the first given (parents are sorted by key).",
  "every commit graph in every reachable world",
  "all graphs",
  ["src/display.rs:log_obj", "src/commit.rs:commit_tree"])
p("C59", "every stored object is well formed for its type",
  "In every reachable world each object that can be read is well formed for its type: blobs have no keys, blob trees no data, files exactly one key, directories as many names as keys and a matching size, commits parse with sorted parents and no extra attributes; a key parses as a commit iff its object has the type commit.",
  "every sequence of commands, failing writes, kills and file edits",
  "all histories",
  ["src/dir.rs:put_fs_item", "src/commit.rs:commit_tree", "src/file.rs:put_data", "src/object.rs:Object"])
p("C60", "stored objects form no cycles, so every traversal ends",
  "In every reachable world objects can be numbered so that each only refers to smaller numbers; no object leads back to itself, whatever the hash function; reading a file, walking a tree, show and log end within a recursion depth of the number of rows.",
  "every sequence of commands, failing writes, kills and file edits, with no assumption on hash collisions",
  "all histories and all hash functions",
  ["src/file.rs:read_data", "src/dir.rs:walk_fs_items", "src/display.rs:log_obj", "src/display.rs:display_obj"])
p("C61", "status is clean and checkout-head succeeds exactly on unchanged files",
  "If the working directory is as it was when HEAD's newest commit was made (in particular right after a commit of the whole directory on HEAD's ref), status prints HEAD's ref and an empty result, and checkout-head sets HEAD. Conversely, if checkout-head changes HEAD, nothing was added to or removed from the working directory since that commit and every file in it has the committed contents (a file that has become a directory goes unnoticed). Commands before may have been run on any file trees in which files with equal inode, mtime and size have equal contents.",
  "every working directory, repository state and history of commands, kills and file edits; for the converse also failing writes and any current directory",
  "all trees, states and cache histories",
  ["src/main.rs:status", "src/main.rs:checkout_head", "src/main.rs:commit_cmd", "src/diff.rs:compare", "src/dir.rs:hash_fs_item"])

p("C62", "a commit can be restored later with checkout and with fetch",
  "After a commit, then any sequence of commands, kills and file edits: (a) while that commit is the newest entry of HEAD's ref, a checkout that ends well leaves exactly the committed files with the committed contents and the committed directories below the root, nothing else in them apart from the database folder and excluded names, and nothing changed outside; (b) fetch of the commit's tree into a place with nothing in the way succeeds, writes exactly the committed files and touches nothing else. A checkout need not end well: a stored directory that is missing makes it fail.",
  "every file tree, state, history after the commit, position of the repository; contents up to what was read at commit time",
  "all trees and all histories in between",
  ["src/main.rs:checkout", "src/main.rs:fetch", "src/main.rs:commit_cmd", "src/dir.rs:checkout_fs_item", "src/dir.rs:get_fs_item", "src/dir.rs:put_fs_item"])

p("C63", "log and show of a history, in terms of the committed directories",
  "For a history of commits of whole directories, show of a commit prints it and then exactly the patches of files that are new or have other contents than in the parent's directory; it panics instead if a path of the parent's directory is gone, if a file became a directory or the other way round, or if a directory's own listing changed, and fails if a new file is not UTF-8. log prints statistics for each commit from the newest to the first, and panics at the first commit of that kind, after printing it. Each commit extends such a history by one entry.",
  "every chain of committed directories, position in it, line diff and listing order; files read in full when committed",
  "all histories and all directory contents",
  ["src/main.rs:show", "src/main.rs:log", "src/display.rs:display_obj", "src/display.rs:log_obj", "src/diff.rs:compare", "src/diff.rs:create_diff_patch_result"])

p("C64", "what the commands on refs show",
  "ref log of a ref and remote never fails and prints its log, newest first, numbered down to 1; without a name it is about the ref HEAD names, and fails if there is no HEAD or HEAD is not UTF-8. After a committed ref update (or debug reflog-push with a remote) it prints the resolved key with the next number on top of what it printed before, debug reflog-get prints that key, the logs of all other refs and remotes print what they did before, HEAD and the stored objects are unchanged. After debug set-head, get-head prints the name and all logs print what they did.",
  "every reachable world, ref name, remote and key text",
  "all histories of refs",
  ["src/main.rs:ref_log", "src/main.rs:ref_update", "src/main.rs:debug_reflog_push", "src/main.rs:debug_reflog_get", "src/main.rs:debug_set_head", "src/ds/sqlite.rs:reflog_walk"])
p("C65", "which commands change files, whatever becomes of them",
  "Every command other than fetch, checkout and init leaves all files unchanged, whether it succeeds, fails or panics. fetch never changes or removes a file or directory that was there. checkout of a commit of the repository's directory, even if it fails or panics half way or system calls fail, changes nothing outside the repository's directory and nothing in the database folder. The file effects of a failing command are not rolled back.",
  "every command, file tree, state, history between commit and checkout, failing system and database calls",
  "all executions including failing ones",
  ["src/main.rs:main", "src/main.rs:fetch", "src/main.rs:checkout", "src/dir.rs:checkout_fs_item", "src/dir.rs:get_fs_item"])
p("C66", "commands without a repository",
  "If no ancestor of the current directory has a database folder, every command but init and debug walk-fs-tree ends with the error that there is none (status 0), prints nothing else and changes nothing; debug walk-fs-tree prints what it prints in a repository.",
  "every command, current directory and file tree",
  "all commands and trees",
  ["src/main.rs:main", "src/main.rs:find_db_folder"])
p("C67", "what status and compare print",
  "compare without a key is in every respect compare with any text for the tree of HEAD's newest commit; status prints HEAD's ref, the first letters of the commit's key and then what compare prints, ends in the same way and leaves the same. For the directory the command is run in, compared with a stored directory: the command panics iff a path of the stored directory is gone; otherwise it succeeds and prints exactly the new files and directories that are not inside a new directory, and exactly the files that were a directory or had other contents.",
  "every pair of directories, repository state and cache filled by earlier commands in which files with equal inode, mtime and size have equal contents; no failing writes",
  "all pairs of trees and states",
  ["src/main.rs:status", "src/main.rs:compare", "src/diff.rs:compare", "src/diff.rs:simplify"])
p("C68", "when insert and commit succeed",
  "In a directory of bounded size, insert succeeds iff no write fails, the argument exists, and below it every path that is not excluded is a file or directory whose contents can be read and whose name is UTF-8, with no dangling link in a directory that is not excluded; commit succeeds iff HEAD or the given ref can be resolved and the same holds of the working directory. Nothing else, no earlier history and no contents, makes them fail.",
  "every file tree, environment, reachable repository state and message with bounded sizes (lengths below 2^64, depth below the recursion bound)",
  "all trees and all states; the failure side needs every kind of obstacle at every place",
  ["src/dir.rs:put_fs_item", "src/main.rs:insert", "src/main.rs:commit", "src/lib.rs:commit_tree"])
p("C69", "patches turn the old file into the new one and back",
  "For every line diff, applying the hunks made of it to the old lines, each hunk at the line its header gives in both files, succeeds and gives exactly the new lines; read backwards they turn the new lines into the old ones. So the patch of a modified file turns the old text followed by a newline into the new text followed by a newline, if the library's line diff is one of these texts. The patch of an added file contains its text iff that is empty or ends in a newline and has no carriage return before a newline.",
  "every list of changes; every pair of texts and every line-diff function that is right on it",
  "all texts, all diffs: hunks interact through the line numbers",
  ["src/diff.rs:patch_from_file_string", "src/diff.rs:create_diff_patch_result"])

p("C70", "commands running at the same time are serialisable",
  "However the database statements of any number of processes running on one repository are interleaved, and wherever statements fail (busy, full disk) or processes are killed, the database file is at every moment what the commands that committed leave when run one after the other by main, in the order of their COMMITs. Every command has worked on the database as it was between two of them. At most one process has unfinished writes at any time, and nothing stored or logged by a committed command is lost.",
  "every number of processes, all commands but init, all interleavings, failures and crash points",
  "interleavings are unbounded and cannot be forced in a test",
  ["src/ds/sqlite.rs:SqliteDS::new", "src/ds/sqlite.rs:begin_trans", "src/ds/sqlite.rs:commit", "src/main.rs:main"])

p("C71", "the key printed by insert, cut short, fetches the path again",
  "A beginning of a printed key resolves to that key iff it is not the whole printed key and begins no other stored key; otherwise resolving fails. So after a successful insert, and whatever commands, kills and file changes come after it, fetch of such a beginning restores every file of the inserted path with its contents below a destination where nothing is in the way, and touches nothing else. With any other beginning of the key (an ambiguous one, or all of it) fetch fails and changes no file.",
  "every reachable world, path, later history, abbreviation and destination",
  "quantifies over all stores, histories and abbreviations",
  ["src/main.rs:insert", "src/main.rs:fetch", "src/keyish.rs:Keyish", "src/ds/mod.rs:canonicalize"])

p("C72", "objects no ref leads to make no difference",
  "In any reachable repository, remove from a database any rows whose objects cannot be reached from a ref (keeping the rest closed under references; removing all of them is such a case). Then every later session of commands given keys by ref, with any edits of files in between, ends and prints step for step as it would have without the removal, leaves the same files, cache, HEAD, refs and logs, and again two repositories that differ in unreferenced objects only. One command with abbreviated keys does so too if the abbreviation resolves alike in both. The only exception is compare --stat, which reads objects by keys from the cache and may panic.",
  "every reachable world, every removed set, every session of all commands, every edit, all failures of writes; no two different byte strings hashed in the session have equal hashes",
  "quantifies over sets of removed objects and over all later sessions: a relational property of two runs",
  ["src/main.rs:main", "src/ds/mod.rs:DataStore", "src/ds/sqlite.rs:SqliteDS", "src/diff.rs:compare", "src/dir.rs:hash_fs_item", "src/cache.rs:Cache"])

p("C73", "which chunks two versions of a file share",
  "When a file is stored and then an edited version of it, both read in pieces of at most 32768 bytes, the second put adds file chunks only for the bytes from the last chunk boundary before the edit up to any landmark after it (a place where the hash of the preceding 64 bytes has 13 leading zeros, alone among 32768 places); after an append only for the bytes after the last boundary. With reads that fill the 65536-byte buffer this fails: boundaries are then at multiples of 32768 bytes whatever the contents, and there are files of any size all of whose bytes are stored again in new chunks when one byte is put in front.",
  "all contents, edits, splits into reads, gear tables, hash functions and stores; for the last part no two different byte strings hashed have equal hashes",
  "quantifies over all files and edits; boundaries depend on a rolling hash of all the preceding bytes, and on how the reads were split",
  ["src/file.rs:put_data"])

p("C74", "every command ends",
  "In a world reachable from scratch, with any well-formed file tree, every command comes to an end: none of the recursions over stored trees, file chunks, history and directories, nor the search for the repository, goes on for ever. The bound on the depth of recursions that the model carries plays no role: there is one outcome, and it is the one with every sufficiently large bound; a run that does not reach its bound is the same with every larger one.",
  "every reachable world, every well-formed file tree, every command and argument, all failures of writes and orders of iteration",
  "termination on all inputs; the recursions follow keys found in the database, and no finite number of runs excludes a cycle",
  ["src/main.rs:main", "src/dir.rs:put_fs_item", "src/dir.rs:get_fs_item", "src/dir.rs:checkout_fs_item", "src/dir.rs:walk_fs_items", "src/dir.rs:walk_real_fs_items", "src/file.rs:read_data", "src/display.rs:display_obj", "src/main.rs:find_db_folder"])

p("C75", "every stored file and directory is complete",
  "Whatever commands, kills and changes of the files have happened since the databases were empty: every key stored in an object leads to an object of the right type (contents are made of contents, a file has exactly one contents, a directory has files and directories, with as many different proper names), and every key that leads to contents, a file or a directory leads to a complete one. It has a definite list of files; walking it lists exactly these, reading succeeds, and fetch, now or at any later time, to a place where nothing is, writes exactly these.",
  "every history of commands, kills and file changes; every key in the database, whether a ref leads to it or not; every later state and destination",
  "an invariant of all reachable databases, also those with objects left by failed or killed commands; tests look only at the trees they have just stored",
  ["src/dir.rs:put_fs_item", "src/dir.rs:get_fs_item", "src/dir.rs:walk_fs_items", "src/file.rs:put_data", "src/file.rs:read_data", "src/main.rs:fetch"])

p("C76", "why commands panic: keys, directories, stored data",
  "The process panics outside a command only if the database folder is the root directory; then every command panics. init, ref log, debug reflog-get, set-head, get-head and walk-fs-tree never panic otherwise. ref update, debug reflog-push, pretty-print and walk-tree panic if and only if the key argument is the text of a whole key that is not stored; debug commit-tree if and only if the first of its keys that does not resolve is such a text. insert and commit panic only if a directory they enter contains a dangling link or something they do not leave out is neither a directory nor a regular file. fetch panics only for the text of a whole key that is not stored or for a key of file contents (not of a file) that happen to read as the description of a file.",
  "every world, command, argument, file tree, and all failures of writes; for fetch every history of commands and file changes since the databases were empty",
  "absence of all panics but the named ones, over all states; tests can only show panics",
  ["src/main.rs:main", "src/ds/mod.rs:canonicalize", "src/filter.rs:make_filter_fn", "src/dir.rs:put_fs_item", "src/dir.rs:get_fs_item", "src/file.rs:put_data", "src/file.rs:read_data"])

p("C77", "why show and log panic",
  "In every repository reached from scratch by commands, kills and file changes: show panics if and only if its argument is the text of a whole key that is not stored, or leads to a commit that cannot be displayed; log if and only if its argument is such a text, or leads to something that is not a commit, or one of the commits in the line of first parents cannot be displayed. A commit cannot be displayed if its first parent is not a commit, if its tree or that of its first parent is neither file nor directory, if a path of the first parent's tree is not in its tree, or if something that is a directory in one of the two trees differs in the other (for show, unless there is a new file that is not text: then it is an error). Nothing else makes them panic.",
  "every history of commands, kills and file changes, every argument, all orders of iteration; no two different byte strings hashed have equal hashes; recursion bound above the number of objects",
  "absence of all panics but the named ones, over all reachable databases and commits; tests can only show panics",
  ["src/main.rs:show", "src/main.rs:log", "src/display.rs:display_obj", "src/display.rs:log_obj", "src/diff.rs:compare", "src/diff.rs:print_patch_diff_result", "src/diff.rs:print_stat_diff_result"])

p("C78", "why compare, status and checkout-head panic",
  "In every repository reached from scratch: status, checkout-head and compare without a key panic if the newest entry of HEAD is not a commit; compare panics if its key is the text of a whole key that is not stored. Otherwise they panic only if a directory that is entered contains a dangling link, or a path of the stored tree is missing in the directory, or there is a new file and it cannot be read at its relative path from the current directory, or a write fails, or the cache is malformed. A missing path and a new file that is not a regular file seen from the current directory make all three panic, whatever the cache and the failures of writes; in good conditions status panics if and only if one of these holds. compare --stat panics in addition only if a file of the directory is a directory in the stored tree, or the cache (shared by all repositories) holds a key under which this repository has no file.",
  "every history of commands, kills and file changes, every well-formed file tree, cache, argument, order of iteration and failures of writes; for --stat no two different byte strings hashed have equal hashes",
  "absence of all panics but the named ones, over all reachable databases, caches and directories; tests can only show panics",
  ["src/main.rs:compare", "src/main.rs:status", "src/main.rs:checkout_head", "src/diff.rs:compare", "src/diff.rs:line_stat", "src/dir.rs:hash_fs_item", "src/cache.rs:Cache"])

p("C79", "why checkout panics",
  "In every repository reached from scratch whose database folder has a plain name, checkout panics only if the newest entry of HEAD is not a commit, if the repository is not below the directory that is built into the program (/home/jess/src/snapcd/repo), or if a dangling link lies in a directory that the commit has too. In particular no failing system call, no lost directory and no stored object makes it panic, and the database folder stays reachable all through. Conversely: the first cause always makes it panic; all files of a commit that is checked out without error are below the built-in directory; and outside of it, an entry of the repository's directory that is neither left out nor in the commit makes checkout panic before anything is changed.",
  "every history of commands, kills and file changes, every well-formed file tree, every order of iteration and failures of system calls; no two different byte strings hashed have equal hashes",
  "absence of all panics but the named ones, over all reachable databases and directories, including those in the middle of a checkout; tests can only show panics",
  ["src/main.rs:checkout", "src/dir.rs:checkout_fs_item", "src/filter.rs:make_filter_fn", "src/file.rs:read_data"])

p("C80", "the printed form of an object determines it",
  "From the text that debug pretty-print writes one can read the type of the object, all its keys in both notations, in order, and its data byte for byte, whatever the object; the data stands twenty bytes to the line. If it prints the same text for two arguments, in the same or in two different repositories, the arguments denote the same object under the same key.",
  "every object, argument, reachable repository, and all ways the libraries format decoded values",
  "injectivity of a printed form over all objects; a test compares finitely many outputs",
  ["src/object.rs:Object", "src/key.rs:Key", "src/main.rs:pretty_print"])

p("C81", "the printed comparison says exactly what changed",
  "Where no name contains a line break, the text of compare and status can be read: it lists exactly the added, deleted and modified paths, in order, and tells added directories from files. With nothing removed since the commit, names being UTF-8 without line breaks and the cache faithful, the text of status names HEAD and its commit and then lists exactly the new paths not inside new directories and exactly the changed files. Nothing is printed for a comparison if and only if there is nothing to report. Where names may contain line breaks, two different comparisons can have the same text.",
  "every result of a comparison; every reachable repository, directory and commit within the stated conditions; all orders of iteration",
  "an exact reading of all outputs for all directory contents; tests compare single outputs",
  ["src/diff.rs:print_diff_result", "src/diff.rs:simplify", "src/main.rs:compare", "src/main.rs:status"])

p("C82", "the printed log says exactly what was committed",
  "The text of a successful log consists of one entry for each commit from the given one back along first parents, each with its key, message and statistics of changed lines; where messages and paths contain no line breaks, all of this can be read off the text. A message with line breaks can make the log of one commit equal to the log of two, with any second key and message.",
  "every reachable repository, argument and history, all ways of counting lines and orders of iteration",
  "an exact reading of all outputs for all histories, and the impossibility of one; tests compare single outputs",
  ["src/display.rs:display_obj", "src/display.rs:log_obj", "src/diff.rs:print_stat_diff_result", "src/main.rs:log"])

p("C83", "data stores are interchangeable",
  "The code that stores contents, directories and commits works on any data store through the trait DataStore. Whatever two data stores do and contain: if the same contents, directory or commit can be stored in both, it gets the same key in both. With the store that keeps nothing, the result (key, error or panic) is what the SQLite store gives, unless a write to SQLite fails; so what insert prints and how it ends can be predicted without a database. Every read from the store that keeps nothing panics.",
  "all implementations and states of two data stores, all contents, file trees, filters, commits and failures of writes",
  "quantifies over all implementations of a trait; tests run the two that exist",
  ["src/ds/mod.rs:DataStore", "src/ds/null.rs:NullDS", "src/file.rs:put_data", "src/dir.rs:put_fs_item", "src/commit.rs:commit_tree", "src/main.rs:insert"])

p("C84", "the shape of stored contents",
  "In every repository reached from scratch all chunks of stored contents are equally deep, at most five levels down, and a file.blobtree points to chunks only or to blobtrees only, as the README says. The reader does not need that: in any database whatever it succeeds exactly if the key is the root of a finite tree of files, blobtrees and chunks, balanced or not, and then gives the chunks from left to right.",
  "every history of commands, kills and file changes; for the reader every database, however made, and every key",
  "the shape of all stored trees after all histories, and an exact description of what is readable in arbitrary databases",
  ["src/file.rs:put_data", "src/file.rs:read_data", "src/object.rs:ObjType"])

p("C85", "checkout settles the working directory",
  "A working directory that agrees with the tree of HEAD's newest commit (same paths, same kinds, same contents, as the program sees them) is clean, whoever made it agree: status finds no difference and ends well, and checkout-head sets HEAD. A checkout that ends well makes the repository's directory agree with the directory that was committed, so right after it the status is clean.",
  "all trees, commits, exclude patterns, iteration orders, earlier uses of the cache; the committed directory and the checked-out one may be arbitrarily different before",
  "relates an arbitrary earlier directory, the restored one and a comparison through database and cache, for every tree and every state of the cache",
  ["src/main.rs:checkout", "src/main.rs:status", "src/main.rs:checkout_head", "src/dir.rs:checkout_fs_item", "src/diff.rs:compare"])

p("C86", "when checkout succeeds",
  "In a repository inside the hard-coded directory, with a HEAD commit of a stored directory and without I/O errors, checkout ends well exactly if every directory of the stored tree is already a directory in the working directory without dangling links in it, and at the place of each stored file is nothing or a file. So a deleted subdirectory is never brought back by checkout, a directory from which the HEAD commit was just made can be checked out, and a checkout that ended well can be repeated.",
  "all stored trees, working directories, exclude patterns, iteration orders and histories",
  "an equivalence between the outcome of a recursive program that changes the file system and a condition on the file system before, for all trees",
  ["src/main.rs:checkout", "src/dir.rs:checkout_fs_item", "src/filter.rs:make_filter_fn"])

p("C87", "how a failure shows",
  "The exit status is 0 both for success and for an error, so only the output tells: whenever the program ends with an error the last thing it prints is 'fatal: ' and the text of the error. For all commands but show, log, status, compare --stat and debug walk-fs-tree nothing is printed before, and the output starts with 'fatal: ' exactly if the command ended with an error; then (init apart) no database has changed.",
  "all commands, arguments, repositories, file systems, faults and all ways to format paths and errors",
  "the absence of misleading output for every state in which a command can succeed or fail",
  ["src/main.rs:main", "src/main.rs:ref_log", "src/main.rs:checkout_head", "src/main.rs:compare", "src/diff.rs:print_diff_result"])

p("C88", "when fetch succeeds",
  "fetch of a file or directory to a path without '..' ends well exactly if, for every file of the stored tree, nothing is at its place and nothing but directories are on the way to it (and, for a single file, the destination ends in a name). So a second fetch to the same place never ends well, even of another tree that has a file path in common; and a tree without files is always fetched well and changes nothing, not even the destination is created.",
  "all sound worlds, keys, destinations and file system states (no failing system calls for the 'if' direction)",
  "an equivalence over all combinations of stored tree and destination, including the negative direction for each obstacle",
  ["src/main.rs:fetch", "src/dir.rs:get_fs_item", "src/file.rs:read_data"])

p("C89", "what the walking commands print",
  "debug walk-tree on a key of a file or directory always ends well and prints exactly one line for each file and directory below the key, with its key and kind, and nothing else (the directory itself is left out). debug walk-fs-tree, inside and outside of repositories, ends well exactly if the path is a directory with only directories and regular files below it, and then prints exactly one line for each of them. On disks with symbolic links it prints, if it ends well, exactly one line for each way on from the directory through entries of directories, links being followed, with the kind of what is at its end.",
  "all sound worlds, keys and paths; all iteration orders of the hash maps",
  "no missing, extra or repeated line for any tree of any shape",
  ["src/main.rs:debug_walk_tree", "src/main.rs:debug_walk_fs_tree", "src/dir.rs:walk_fs_items", "src/dir.rs:walk_real_fs_items"])

p("C90", "storing again stores only what changed",
  "When a directory is stored (insert, commit) in a database that already holds the result of an earlier run, every row that is added belongs to a file or directory that has no unchanged counterpart in the earlier tree at the same relative path: it is a row written for the contents or item of such a file, or the item of such a directory. Storing an unchanged tree again gives the same key and adds no row at all, and a commit of it adds one row for the commit at most and one entry in the log.",
  "all pairs of directory trees, paths, filters, databases in between with whatever else was stored, orders of names and chunkings",
  "bounds what is written for every edit of every directory tree, after any other use of the database",
  ["src/dir.rs:put_fs_item", "src/file.rs:put_data", "src/ds/sqlite.rs:raw_put", "src/main.rs:commit_cmd"])

p("C91", "a failed write is the last one",
  "Whenever a write to the database fails in a command, the command makes no further write and ends with SQLite's error or a panic; so a command that ends well had no failed write. Therefore it makes no difference whether SQLite, on such an error or on a failing COMMIT, also rolls the transaction back by itself (after which writes would commit one by one, and COMMIT and ROLLBACK fail): the database is left as without it.",
  "all commands except init, arguments, file systems, databases, places of the failing write and choices of SQLite to roll back",
  "quantifies over every point at which a write can fail in every run of every command; a test injects a few faults at most",
  ["src/main.rs:main", "src/ds/sqlite.rs:commit", "src/ds/sqlite.rs:rollback", "src/file.rs:put_data", "src/dir.rs:put_fs_item"])

p("C92", "a key determines what is read, in whatever database",
  "In every repository the program made, each row is a value under its own hash. Take any two databases with that property, however they came about (rows lost, rows slipped in), with the same refs, files and cache. A value given out under a key has that hash. If a command succeeds with both, it prints the same and leaves the same files, cache, HEAD and refs; if it succeeds with one, it prints no more than the beginning of that with the other. If one has all objects of the other, what succeeds with the smaller succeeds in the same way with the larger. A fetch that stops for lack of an object has written nothing but beginnings of the right files. (The program itself never checks that a row is under its hash: any bytes put in place of a value are given out.)",
  "all pairs of databases whose rows are under their hash, without collisions among their values and what the runs hash; all commands but init, arguments that mean the same key in both, files, caches, faults",
  "no finite set of damaged databases covers all ways to lose or forge rows; the claim is about every command on every such database",
  ["src/ds/mod.rs:get", "src/ds/mod.rs:put", "src/file.rs:read_data", "src/dir.rs:get_fs_item", "src/dir.rs:walk_fs_items", "src/commit.rs:from_key", "src/main.rs:main"])

p("C93", "storing files that change meanwhile",
  "Whatever other processes do to the files while insert or commit runs: a run that succeeds has the same effect on the database, the same output and the same exit as a run on some well-formed tree that nobody touches, namely the tree of what was seen, each thing at the moment it was looked at (so every guarantee about repositories made from trees that stand still also holds for those made from changing ones). Each file is stored with exactly the bytes its reads delivered, even if its recorded size, taken before, differs. A run that fails or panics because of the changes leaves every database as it was. (That tree need never have existed at any one moment: a file moved from a directory not yet visited to one already visited is missing from the commit.)",
  "all sequences of answers of the operating system (any change between any two system calls), all worlds the program can reach, paths, filters, hash functions, readers; directory listings with proper names, none twice; a database folder other than the root",
  "the interleavings of file system changes with the calls of a traversal are unbounded; a test can race only a few of them, and not reproducibly",
  ["src/dir.rs:put_fs_item", "src/filter.rs:make_filter_fn", "src/file.rs:put_data", "src/main.rs:insert", "src/main.rs:commit_cmd", "src/main.rs:main"])

p("C94", "storing directories with symbolic links",
  "On a file system with symbolic links (which may lead anywhere, dangle, or make directories contain themselves), insert and commit store one entry for each place reached by following entries of directories and the links they are, with what is found at the end of the links; nothing that is physically in the database folder is ever stored, under whatever name a link gives it. If a directory to be stored contains itself by way of links, and no pattern excludes the way, nothing is stored: the limit of the kernel on links ends the traversal in a panic, and without patterns it cannot succeed. Every traversal ends, at a depth bounded by the limit times the depth of the file system. A success is the same as on the plain tree of what was reached, so all other guarantees hold for it. On a file system without links this is the behaviour the other properties are about.",
  "all file systems with links (relative, absolute, through other links, dangling, cyclic), all limits of the kernel, paths, patterns, database folders, hash functions, readers, worlds the program can reach",
  "link structures are unbounded, and a directory that contains itself has infinitely many paths",
  ["src/dir.rs:put_fs_item", "src/filter.rs:make_filter_fn", "src/main.rs:insert", "src/main.rs:commit_cmd"])

p("C95", "comparing files that change meanwhile",
  "Whatever other processes do to the files while compare, status or checkout-head runs: the report of a successful status is exactly what was seen. Every reported path was listed as what it is reported to be, every listed path that is not stored is reported, no stored path was missing from the listing, and a stored path listed as a file is reported as modified iff the key it was taken to have in one later visit (that in the cache for the inode, time and size it was opened with, or else that of what was read) differs from the stored one. HEAD moves only if no difference was seen; if visits are not torn (no file changes its size between being found and being opened) and times tell contents apart, each stored file then really had the stored contents at some moment. A failed run leaves all databases as they were, any run leaves them such that all guarantees about repositories still hold. The cache only ever grows. (Hence the expectation that status is right once the files are left alone is false: a visit that was torn leaves a wrong key in the cache, and from then on every status lists the untouched file as modified, also right after it was committed.)",
  "all sequences of answers of the operating system (any change between any two system calls), all later runs of any commands and any edits, all worlds the program can reach, hash functions, readers, iteration orders, filters",
  "the interleavings of file system changes with the calls of a traversal are unbounded, and the lasting damage shows only in later runs",
  ["src/dir.rs:hash_fs_item", "src/dir.rs:walk_real_fs_items", "src/diff.rs:compare", "src/cache.rs:SqliteCache", "src/main.rs:compare", "src/main.rs:status", "src/main.rs:checkout_head"])

p("C96", "writing to directories with symbolic links",
  "On file systems with symbolic links, whatever they are: fetch, whatever becomes of it, only adds directories and files. No entry there was is changed or removed, links included, no link is made, and each new place is where the path of a file of the tree, or of a directory on the way to it, leads. After success each file can be read at its path with the contents stored, in a place that was vacant before; fetched to a path where there is nothing, the tree is at the place that path leads to. Checkout, whatever becomes of it, changes nothing outside the directory, makes no link and leaves the database folder in it as it is, provided that no link is on the way to the directory and none is where the tree has a file or directory; other links are removed, not what they lead to. Without that condition files outside are removed, made and written over (C96_outside_counterexample). Where there are no links both do what the model without links says, so that what is proved with it applies.",
  "all file systems with links (cycles and dangling links included), databases, stored trees, keys, paths, filters, iteration orders, failures of system calls",
  "link structures are unbounded, and which calls follow links differs from call to call; tests with a few links do not cover what links under and beside a tree can do",
  ["src/dir.rs:get_fs_item", "src/dir.rs:checkout_fs_item", "src/filter.rs:make_filter_fn", "src/main.rs:fetch", "src/main.rs:checkout"])

p("C97", "comparing directories with symbolic links",
  "On file systems with symbolic links, whatever they are: the listing that compare, status and checkout-head make of the working directory has just the places that storing it comes to by following entries of directories and links, each as the file or directory it leads to. With recursion deep enough in terms of the number of links the kernel follows, the listing always ends; where links lead a directory back to itself and no pattern excludes that, there is no result. After a commit of the working directory, as long as files and links stay as they are, status finds no differences and checkout-head sets HEAD. Conversely, if a comparison with a stored tree finds no differences, the tree has just these places, and for each file the key that storing what is there now gives. A successful status reports as added just the places the tree does not have, as modified just the files of the tree whose contents now have another key, and no path as deleted. (Files with the same inode, time and size are taken to have the same contents, and the cache to have no wrong key for what is there.) Where there are no links, all this is what the model without links says.",
  "all file systems with links (cycles and dangling links included), databases, caches, stored trees, patterns, iteration orders, numbers of links followed",
  "one file can be reached in any number of ways, which share one cache entry, and the tree walked can be larger than the file system; tests with a few links do not cover link structures",
  ["src/dir.rs:internal_walk_real_fs_items", "src/dir.rs:hash_fs_item", "src/diff.rs:compare", "src/main.rs:compare", "src/main.rs:status", "src/main.rs:checkout_head"])

p("C98", "a query that fails is no answer",
  "Any query of the database or the cache may fail, at any time, when it is prepared or while its rows are fetched. Whichever fail, a command other than status and checkout-head either ends, prints and leaves files, databases and cache exactly as if none had failed, or prints fatal or panics, leaves every database and the cache as they were and has printed only a beginning of what it should have printed. So a command that ends well has done what it should: commit never drops the parent, log and ref log never stop early. Only fetch and checkout write files; if the very first query fails nothing at all happens. status and checkout-head keep to this too unless it is the query for the newest commit of HEAD's ref that fails, which they take to mean that there are no commits: then status says so and ends well; checkout-head sets HEAD if there is nothing in the working directory, although that may not be what is committed, and leaves HEAD alone if there is something.",
  "all sets of failing queries, all worlds, all commands, all iteration orders",
  "which query fails, out of any number, is beyond a test: the failures of a database cannot be provoked at a given query",
  ["src/ds/sqlite.rs:reflog_get", "src/ds/sqlite.rs:raw_get", "src/ds/sqlite.rs:raw_between", "src/ds/sqlite.rs:raw_get_state", "src/ds/sqlite.rs:reflog_walk", "src/cache.rs:raw_get", "src/main.rs:commit_cmd", "src/main.rs:status", "src/main.rs:checkout_head", "src/display.rs:log_obj"])

p("C99", "where an interrupted fetch or checkout has got to",
  "Whichever calls of the operating system fail on the way, and whatever the outcome: after fetch or checkout each file of the stored tree is as it was before or has exactly the stored contents, except for at most one, which may hold a mere beginning of them. Fetch makes nothing else than directories on the way to files of the tree. A checkout that failed can simply be done again: if the directory was fit for it before, it still is, and where nothing fails any more the next one ends well and leaves every file as it is stored. A fetch that failed cannot: the next one to the same path ends well just if the first had not created any file yet.",
  "all sequences of failures of system calls (writes that fail part-way and removals that do included), all worlds the program can reach, stored trees, keys, paths, patterns, iteration orders",
  "the failing call may be any of an unbounded number, and writes may stop at any byte; tests cannot make each of them fail",
  ["src/dir.rs:get_fs_item", "src/dir.rs:checkout_fs_item", "src/file.rs:read_data", "src/main.rs:fetch", "src/main.rs:checkout"])

p("C100", "listings can be read back",
  "From the text printed by a command that ends well one can read back, with a parser that knows nothing but the text, what was listed: from ref log the number and key of each entry; from debug walk-tree the quoted path, the whole key and the kind of each item, and from debug walk-fs-tree the quoted path and kind, even where names contain commas, brackets or line ends; from insert the whole key, which other commands then accept; from the first line of status the name of HEAD's ref and eight letters of its commit's key. Those eight letters, given to show or log, name that commit just if no other stored key begins with them; otherwise the command ends with a fatal error and never shows another object.",
  "all stores the program can reach, names of files and refs, logs, trees, keys",
  "names, paths and keys are arbitrary; a separator inside a name or a key that shares a beginning with another would make a listing ambiguous, and samples hardly contain one",
  ["src/main.rs:ref_log", "src/main.rs:insert", "src/main.rs:debug_walk_tree", "src/main.rs:debug_walk_fs_tree", "src/main.rs:status", "src/key.rs:Key::as_user_key"])

p("C101", "repositories reached through symbolic links",
  "The whole program with symbolic links kept as links: where there are none it does exactly what it does on plain directories. The repository used is that of the nearest ancestor whose entry of the database folder's name leads to something, links followed; its database is snapcd.db in the directory the folder leads to. Repositories whose folders lead to the same directory are one: commands that do not look at the user's files behave the same in both. Each run changes at most that one database, and every database ever written through links is one a sound world of plain directories has. Init changes no other database and no existing entry and leaves HEAD at master; where the folder's name is a link that leads to no directory it fails and changes nothing.",
  "all disks with symbolic links, working directories, commands, databases, worlds the program can reach, failures",
  "links may form any graph, loops included, and several repositories may share a database; tests visit a handful of layouts",
  ["src/main.rs:find_db_folder", "src/main.rs:init", "src/main.rs:main", "src/filter.rs:make_filter_fn"])

p("C102", "processes that do not start or end as they should",
  "If the callback of SQLite cannot be registered, the cache not be opened or its transaction not be begun, the process prints nothing, changes no file and no database, and does not end with success. If rolling back fails, all is still as if it had not, except for the exit of the process. If the transaction on the database cannot be begun, which main ignores, the command writes statement by statement: if it ends well, the tables are those it leaves with a transaction; if not, rows of data may stay behind, so that the expected atomicity is refuted, but no ref, no HEAD and no log entry has changed, every row stored before is still there, and the store has no dangling reference. Such a failed insert or commit can simply be run again: it ends and prints as it would have, and leaves the same tables, row by row, as if the first attempt had not taken place.",
  "all combinations of failures when starting and ending, all commands, failures of writes, worlds the program can reach, trees of files",
  "which of an unbounded number of writes fails after a BEGIN that failed is arbitrary; tests cannot make SQLite refuse a transaction at will",
  ["src/main.rs:main", "src/main.rs:setup_sqlite_callback", "src/ds/sqlite.rs:begin_trans", "src/ds/sqlite.rs:rollback", "src/ds/sqlite.rs:commit", "src/cache.rs:begin_trans", "src/cache.rs:rollback"])

p("C103", "what was fetched, stored again",
  "Insert a path, fetch the printed key, cut short, to a place where nothing is, copy the result anywhere and insert it into whatever repository: the files are the same, each has the key it had, and every directory now leads to a file. The key of the whole is the same if every directory of the first tree led to a file and the entries are listed in the same order; within one repository it is the same only then. So a second round changes the key only if the order of the entries changes. Keys do not depend on how reads cut the contents, on inodes, on times or on the place.",
  "all file trees, filters, hash functions without collisions among what is hashed, reads in pieces of at most 32768 bytes, commands in between, listing orders, destinations, repositories",
  "the listing order of directories and the way reads cut contents vary between machines and file systems; tests see those of one",
  ["src/dir.rs:put_fs_item", "src/dir.rs:get_fs_item", "src/file.rs:put_data", "src/main.rs:insert", "src/main.rs:fetch"])

p("C104", "databases survive everything at once",
  "Take any sequence of: processes of which any part of the start, the beginning of the transaction, any write or the end fails; processes in trees of files with symbolic links; commands whose files change while they are read; commands of which any queries fail; any number of processes at work on one database at the same time; any of these killed. After it no reference in any database dangles, every object is stored under its hash, references have no cycles, every object has the type that fits where it is referred to, every stored file and directory can be fetched, and no row and no entry of a log is lost. What was committed before is restored by checkout and fetch.",
  "all such sequences from empty databases, all commands, file systems, answers of the file system, failures, interleavings and moments of death; all hash functions (for types and contents: without collisions among what is hashed)",
  "tests try one disturbance at a time; here all orders of all disturbances are covered by one induction",
  ["src/main.rs:main", "src/ds/sqlite.rs:SqliteDS", "src/dir.rs:put_fs_item", "src/file.rs:put_data"])

p("C105", "the checks Rust makes by itself never fail",
  "With every bounds check, every check that a string is cut between characters, every overflow check and every debug assertion made explicit, turning bytes into base32 and back, printing keys and beginnings of keys, reading keys from the database, parsing the text of keys and refs, storing contents and making the hunks of patches give the same results as without them, so they never panic there and debug and release builds agree.",
  "all byte strings, all valid UTF-8 texts, all keys, gear tables, hash functions, databases, all sequences of reads that return at most the 65536 bytes asked for, all lists of changes with fewer than 2^64 - 1 lines",
  "a check that fails only for some inputs (a character of several bytes next to a slash, a fifth level of the tree, a hash with too few zeros) is found by tests only if they happen to use such inputs",
  ["src/base32.rs:pop_u5_from_bitvec", "src/base32.rs:from_base32", "src/base32.rs:to_base32", "src/key.rs:from_db_key", "src/keyish.rs:from_str", "src/file.rs:put_data", "src/diff.rs:patch_from_file_string", "src/main.rs:status"])

p("C106", "nothing depends on what else the decoder accepts",
  "The CBOR decoder is a parameter of which only this is assumed: it does not panic, it inverts the encoder on what the program writes, it does not take commits for items, items for commits, or empty data for either. Every decoder that behaves as the one for definite lengths on data beginning with the bytes a2 and a3 (and on empty data) is one. Any two such decoders read the same objects, commits and contents from every database that the program has made, list the same files of every stored directory, and write the same files in the same order when fetching it. They can differ where contents are asked for as if they were a file or a directory, and only there.",
  "all decoders with these laws, all reachable databases, keys, depths, file systems",
  "tests run one decoder, that of the version of serde_cbor in use; an upgrade, or another library, accepts other things",
  ["src/ds/mod.rs:get_obj", "src/dir.rs:TryInto<FSItem> for Object", "src/commit.rs:TryInto<Commit> for Object", "src/dir.rs:get_fs_item", "src/dir.rs:walk_fs_items", "src/file.rs:read_data"])

p("C107", "processes sharing the hash cache at the same time cannot spoil it",
  "All repositories of a user share one cache of hashes. Whatever the interleaving of commands that compare files (status, compare, checkout-head), whichever of their statements fail or find the file locked, and even if files change meanwhile: the cache is always the one that the commands which committed entries leave when run one after the other in some order; each command worked on the cache left by some of them, and one that committed entries on that of exactly those before it. At most one process holds the write lock, no entry is lost or changed, and if the commands saw files as they were at some time then every cache that any of them met, at any moment, is one on which the results about correct answers (C61, C95) hold. Commands that do not compare leave the cache alone.",
  "all interleavings of any number of processes, all commands, files, faults and initial caches",
  "interleavings with a partly written transaction and a stale snapshot come up by accident, and a wrong entry shows only in a later run, perhaps in another repository",
  ["src/cache.rs:SqliteCache", "src/main.rs:main", "src/dir.rs:hash_fs_item"])

p("C108", "commands that share database and cache at the same time",
  "For any number of processes, each running any command but init on the same repository and with the same cache, in any interleaving, each statement on either file failing or being locked out at will, each process ending at any point: the database is what the commands that committed to it leave when main runs them one after the other, each with the cache that it saw; the cache is what the commands that committed to it leave when run one after the other, each with the database that it saw; the two orders may differ. Every process, finished or not, has seen a database that commands run one after the other produce and a cache to which the results about correct answers (C61, C95) apply. No entry of the cache and nothing that was committed to the database is lost.",
  "all interleavings of any number of processes, all commands, files, faults, initial databases and caches",
  "the two files are committed one after the other, by different protocols, so that the number of interleavings is beyond any test",
  ["src/main.rs:main", "src/ds/sqlite.rs:SqliteDs", "src/cache.rs:SqliteCache"])

p("C109", "the cache is only a cache",
  "Take two caches that any commands filled, in any repositories, with any entries lost meanwhile (the file deleted, or a machine that stopped: the cache is written with synchronous off). If files with equal inode, change time and size were equal, then status, checkout-head and compare without --stat print the same with either, leave the same files, HEAD and refs, and end in the same way, except that the COMMIT on one of the caches may fail. In particular deleting the cache is never seen. With --stat it is (shown by an example): that reads contents which only a miss in the cache has stored.",
  "all histories of commands that fill the caches, all losses of entries, all files, databases, orders of iteration and arguments",
  "tests start with an empty cache, or with the one that they have just filled; a dependence on what is in it shows in one of many histories",
  ["src/cache.rs:SqliteCache", "src/dir.rs:hash_fs_item", "src/diff.rs:compare", "src/main.rs:status", "src/main.rs:checkout_head", "src/main.rs:compare"])

if __name__ == "__main__":
    here = os.path.dirname(os.path.abspath(__file__))
    with open(os.path.join(here, "..", "properties.jsonl"), "w") as f:
        for x in P:
            f.write(json.dumps(x) + "\n")
