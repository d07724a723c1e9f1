# A Lean 4 model of snapcd

## Layout

* `lean/Verif/Model/*.lean` – the model, one file per Rust source file, each definition citing file and lines.
* `lean/Verif/Spec.lean` – small specification vocabulary used by the property statements (bits of a byte string,
  text prefixes, tree contents ...), independent of the model's helpers.
* `lean/Verif/Lemmas/*.lean` – helper lemmas.
* `lean/Verif/Props/*.lean` – the property theorems only, with non-vacuity examples.
* `properties.jsonl` (generated by `tools/props.py`), `MANIFEST.json`, `seeded/LOG.jsonl`. In the log `claim_broken` names the properties a mutant was aimed at before it was run, `failed` the theorems that
  failed, `held` those of the named properties none of whose theorems failed, with a `judgement`: the English statement is still true of the edited program (a wrong guess), or the theorem was too weak
  and which one was added. Attempts without a result (the edited model does not type-check) are listed as such. `failed` has the theorems whose own proof
  failed and those resting on a lemma whose proof failed; the latter need not be false of the edited program (in v17_3, where HEAD is never set, `C97_switched` still holds, vacuously).

## Modelling conventions

* Bytes are `List UInt8`. A Rust `String` is its UTF-8 byte string, an OS path component is an arbitrary byte string.
* `Result`/panic is `Res α = ok a | err e | panic | fuel`. `panic` is an explicit outcome. `fuel` is "the recursion did not
  end within the given depth" (stack overflow / non-termination); theorems either hold for every fuel or say how much is enough.
* `&mut` functions become state passing: `M α = Db → Res α × Db`.
* A `Db` is the three SQL tables as lists (data: key/value rows; state; reflog in id order), plus a *ghost* list of all byte strings
  ever hashed by `put` (used only to state "no hash collision happened in this history"), plus an oracle `faults` that makes
  arbitrary writes fail (disk full, busy, ...).
* The hash function (blake3) is a parameter `H : Bytes → Key`: no injectivity is assumed. Where a theorem needs it, the
  hypothesis is `NoColl`: among the byte strings actually hashed in the history, equal hash implies equal bytes.
* The gear table (gearhash::DEFAULT_TABLE) is a parameter `table : UInt8 → BitVec 64`. The rolling hash itself is modelled.
* A reader is a list of read results: data of any size up to the 65536-byte buffer, `Interrupted`, or an error; the end is EOF.
* A filesystem is a finite tree (`Node`): regular files (contents, inode, mtime), directories (entries in listing order), special files
  (fifo, device ...) and broken entries (`metadata` fails, e.g. dangling symlink). Symlinks are followed by the code (`metadata`), so a tree is
  what one sees after following them; for `insert` and `commit` (Model/Links.lean, C94), `fetch` and `checkout` (Model/LinkWrite.lean, C96) and `compare`, `status` and `checkout-head` (Model/LinkCompare.lean, C97) links are also modelled as links; Model/LinkMain.lean (C101) puts these together with finding, opening and initialising a repository through links. No concurrent modification by other processes, except for
  `insert` and `commit` (Model/Live.lean, C93) and `compare`, `status` and `checkout-head` (Model/LiveHash.lean, C95), where every answer of the operating system may differ.

## Properties: what is modelled and how it is proved

| id | model | proof |
|---|---|---|
| C01–C03 | `base32.rs` on bit lists | induction over 5-bit groups |
| C04 | `key.rs` | case analysis |
| C05–C07, C10 | `keyish.rs` incl. bit-vector increment | bits/lexicographic-order lemmas; ripple carry = +1 |
| C08, C09 | `ds/mod.rs:canonicalize` over the `Db` model | from C07, store invariant, CBOR first byte |
| C11–C16, C18 | `ds/sqlite.rs` tables as lists | refinement to maps/logs, induction over op lists |
| C17 | connection = durable tables + optional working copy | induction over histories against a spec interpreter |
| C19–C23 | CBOR encoder, any lawful decoder, and one for the definite-length subset; object/FSItem/commit conversions | parser inverts encoder, induction on values |
| C24–C28 | `file.rs`: gear hash, `put_data` loop (well-founded recursion), `read_data` (fuel) | loop invariant "levels ++ chunk ++ buffer ++ rest = input" ; exact loss condition; counterexample built for every table with an even and an odd entry |
| C29–C35 | `dir.rs` over `Node` trees | structural induction on trees |
| C36–C37 | `dir.rs:checkout_fs_item` | structural induction, counterexample |
| C38–C47 | `main.rs` commands over a `World` | invariants by induction over command lists; the ref a command works on (`C38_which`) and a clean comparison (`C47_clean`) without helpers of the model |
| C48 | `main.rs:find_db_folder` | induction on the path |
| C49–C52 | `diff.rs:compare`, `simplify` | set characterisations, sortedness |
| C53–C55 | `diff.rs` patch and line statistics; the external line diff is an arbitrary list | induction on the list |
| C56–C57 | `cache.rs`, `hash_fs_item` | byte-encoding injectivity, induction over histories |
| C58 | `display.rs:log_obj` | relation `Spec.Log` (chain of first parents) equivalent to the loop; sortedness from C22 |
| C59 | all writers of objects | invariant `Closed` (`Shape` of every row) over all commands |
| C60 | all readers of objects | rows refer only to earlier rows, so the row index is a rank; each traversal's depth is bounded by it |
| C61 | `status`, `checkout-head` after `commit` | over all runs the cache holds only keys of files looked at (`uses_right`); C50 applied to a directory and its own snapshot; conversely by induction over the comparison |
| C62 | `commit`, any history, `checkout` / `fetch` | rows only grow over steps; C38 + C37 / C29 |
| C63 | `log`, `show` over chains of commits | C50/C53/C55 for each link; `Chain` is preserved by later commands and extended by `commit` |
| C64 | `ref log`, `ref update`, `debug reflog-push`, `set-head` | appended rows; logs are total by `Closed` (C40) |
| C65 | all commands | each command but three leaves the files alone (`NoFs`); C30, C36 at command level |
| C66 | `main` without a repository | case analysis, C48 |
| C67 | `status`, `compare` | runs of the commands as equations; C50 on the directories, C52 for what is shown |
| C68 | `insert`, `commit` succeed | the walk over the directory is total if everything in it is readable (`Readable`), and each obstacle makes it fail |
| C69 | patches apply | a specification of applying hunks; induction over the maximal runs of C53; the line diff of the `difference` crate is a parameter (`DiffOf` says it is right) |
| C70 | concurrent commands | SQLite's rollback-journal locking as a transition system (Model/Sched.lean, assumed); invariant: whoever has looked at the file still sees it unchanged; induction over interleavings; commands are processes by C36's call traces |
| C71 | `insert` then `fetch` by abbreviation | C08 and C09 over reachable worlds, C29 at the command level |
| C72 | unreferenced objects (garbage) | relational Hoare triples for the command monads (Lemmas/Sim.lean): two databases agreeing on a closed set of objects; `Closed` and `Inv` of both sides; induction over sessions |
| C73 | sharing of file chunks after an edit | linearity of the gear hash mod 2^64 (bytes more than 64 back are forgotten), resynchronisation of the scan at landmarks, `Wrote` triples for what a put stores; forced cuts with full reads |
| C74 | every command ends | monotonicity of every function in the bound (`SM.Le`: equal unless the smaller bound is reached), ranks of keys from `Closed`, depth of the file tree |
| C75 | every object in the database | invariant `Whole` over all commands, by generic triples for everything that stores (Lemmas/StepsPut.lean) with names from a proper file tree (Lemmas/Sane.lean: commands keep it proper) |
| C76 | panics of main and of the simple commands | one lemma per function saying that it does not panic or why (Lemmas/Panics.lean), typed databases from C75 |
| C77 | panics of show and log | every stored tree can be walked and every file in it read, so only the listed causes are left (Props/PanicShow.lean) |
| C78 | panics of compare, status and checkout-head | hashing fails only for the listed reasons; keys of a comparison come from the stored tree, from the cache as it was, or lead to files stored now (Props/PanicWork.lean) |
| C79 | panics of checkout | invariant of the tree of files all through a checkout: the entered directories and the database folder stay, no dangling link appears (Props/PanicCheckout.lean) |
| C80 | text of objects | the text is a function of the records of output (Model/Text.lean); a reader of the text, written independently, inverts it (Props/Text.lean) |
| C81 | text of comparisons | a reader inverts the text where paths have no line breaks, with C67 for the meaning; equal texts of different results otherwise (Props/TextDiff.lean) |
| C82 | text of the log | a reader inverts the text of all entries, with C58 for the commits; a forged log otherwise (Props/TextLog.lean) |
| C83 | data stores | the functions of file.rs, dir.rs and commit.rs once more, over an arbitrary store (Model/Store.lean), equal to the model at SQLite; two relations between computations preserved by all of them (Props/Stores.lean) |
| C84 | shape of contents | balanced by the levels of C75; the reader characterised by an inductive definition, both ways (Props/Blobs.lean) |
| C85 | clean after checkout | walking an agreeing directory and comparing with the stored tree gives nothing, as equal contents get equal keys; agreement after checkout from C37 (Props/Settle.lean) |
| C86 | when checkout succeeds | by induction over the stored tree, both ways: an invariant of the copy for success, needed entries for failure (Props/Ready.lean) |
| C87 | how a failure shows | a predicate 'prints nothing unless it succeeds' kept by the commands' steps (Props/Fatal.lean) |
| C88 | when fetch succeeds | stored trees are written file by file; writing one keeps what is there, so what stands in the way at the end stood there at the start (Props/Fetchable.lean) |
| C89 | what the walking commands print | the maps of the walks are lists of nodes with distinct normalised paths; printing a map prints each entry once (Props/WalkCmd.lean); with links by the visit of C97 without a filter (Props/LinkWalk.lean) |
| C90 | storing again stores only what changed | storing is a list of puts (`IsPuts`); each row of the result is charged to one relative path, and the rows of an unchanged path are those of the earlier run (Props/Incremental.lean) |
| C91 | a failed write is the last one | every command body is a trace of writes that stops at the first failure (`Strict`, the trace proofs of C36 strengthened); then SQLite's own rollback (Model/Auto.lean) commutes with the rest of the run |
| C92 | a key determines what is read, in whatever database | monotonicity of every command body in the objects (`Above`, `Up`: same result where the smaller succeeds, a prefix of the output where it fails), then both databases compared with their union |
| C93 | storing files that change meanwhile | the traversal as questions to an arbitrary oracle; its record (`look`, no database) laid out as a file system on which the ordinary traversal takes the same steps (`Lies`, `Mirror`), so that any racing run is a step of `World.Sound` |
| C94 | storing directories with symbolic links | path resolution with links, limited as by the kernel, as an oracle of C93 (Model/Links.lean); resolution from a place depends only on the place as long as the limit is not reached; a cycle would let the same names be followed for ever with fewer and fewer links left; what whole runs of `insert` and `commit` store (Props/LinkStore.lean), and that none ends well on a directory that contains itself (Props/LinkLoop.lean) |
| C95 | comparing files that change meanwhile | walk, visits and comparison as questions to an arbitrary oracle; each reported key is traced to one visit and to the cache (`Saw`, `Entered`); databases by the steps of `World.Sound` (each newly hashed file is an `insert` of its own); the cache only grows (`World.Ages`), so a torn visit is never corrected |
| C96 | writing to directories with symbolic links | the calls with and without following a link at the end (Model/LinkWrite.lean); fetching only adds entries, so ways through links stay; checking out keeps an invariant: what is outside, and that no link is on the way to a node of the tree; equality with the model without links call by call (Props/LinkPlain.lean); the same of whole runs, and that no other command touches the disk (Props/LinkFiles.lean) |
| C97 | comparing directories with symbolic links | the answers of C94 as an oracle of C95 (Model/LinkCompare.lean); storing a directory and walking it ask about the same places, so the two listings are built in step by one induction; a walk that ends well is a visit of C94; the same of whole runs (Props/LinkStatus.lean, LinkLoop.lean), and the report of `status` from that of C95 (Props/LinkReport.lean) |
| C98 | a query that fails is no answer | all reading functions once more, query by query, with an arbitrary set of failing queries (Model/Flaky.lean); one relation `Tame` between a function with and one without failures: equal until the first failing query, which is the last one made and ends in an error or a panic; closed under sequencing, so the proof follows the code (Lemmas/Flaky.lean). `status` and `checkout-head` apply `.ok()` to one result and are treated apart |
| C99 | where an interrupted fetch or checkout has got to | the files of the tree, in the order they are written, split into done, at most one begun, and untouched (`Spec.Halfway`), by induction over the traversal for every oracle of failing calls; the directories of a tree are never touched, so a checkout stays possible (C86), while a fetch creates its files anew and meets its own traces (C88) |
| C100 | listings can be read back | separate readers of printed lines (`Spec.readRefLog`, `readItems`, `readFsItems`, `readInserted`, `headIn`) applied to `mainText` give back the records; reading goes from the end of a line, where the parts have fixed shapes, so nothing is assumed of names beyond the quoting; the eight letters of `status` by C71 |
| C101 | repositories reached through symbolic links | `mainLinked` composes the link-aware commands with a link-following search, open and `init`; simulation with `mainRun` on disks without links; the databases written are those of `World.Sound` worlds by replaying each command in a plain world with the same answers (`Mirrors`); frame of the database list |
| C102 | processes that do not start or end as they should | `mainStart` with an oracle for the callback, the cache and BEGIN/ROLLBACK; case analysis against `mainRun`; a command that fails has not touched refs (`RefsLast`: writes of refs come last); rows left are a prefix of what the command puts (`execPuts`), hence redoing gives the same rows in the same order |
| C103 | what was fetched, stored again | `putFsItem` with any complete reader in small pieces equals the one with a bytewise reader (C25, induction); the destination of a fetch described by `Arrived`; C34 in both directions |
| C104 | everything that can go wrong, in any order | `Spec.Ordeal` has one constructor per kind of disturbance (those of C43, C70, C93, C95, C98, C101, C102); `Enduring`: what `SameDb` and the bodies of commands keep is kept by each of them (live stores by the frozen world of C93, failing queries by C98, interleavings by C70); instances for the row invariant, closure, wholeness, rows and logs |
| C105 | implicit checks of Rust | Model/Checks.lean repeats the functions with the checks; equality by induction (a match of the gear hash has 13 leading zeros; what follows a one-byte character of UTF-8 text is a character) |
| C106 | independence of the decoder | the decoder is a type class; two lawful instances compared function by function, induction on the fuel for trees |
| C107 | concurrent use of the cache | SQLite's write-ahead-log protocol as a transition system (Model/CacheSched.lean, assumed); invariant: every process looks at the cache after a prefix of the committed writers, a writer at the newest one; what a command does to the cache is a list of puts |
| C108 | database and cache shared | product of the two transition systems (Model/BothSched.lean), in which what a process does to one file depends on what it saw of the other; projection onto C70 and C107 |
| C109 | the cache is only a cache | relation between two runs with the same files and database and two caches that earlier commands filled (C67's invariant); entries may be lost at any time (constructor `lost` of `World.Uses`); relational induction over `compare` |

Where the natural expectation is false of the code, the property is stated as the exact characterisation of what the code does, and a
`_counterexample` theorem beside it refutes the natural expectation (see the notes in the manifest).

## Trusted base

* Lean 4.33.0 kernel; axioms at most `propext`, `Classical.choice`, `Quot.sound` (checked per theorem by `vcheck`).
* The reading of `/repo` into the model, and the following readings of dependencies that are not in `/repo`:
  serde_cbor 0.11 (encoding of structs as text-keyed maps, enums as text or one-entry map, minimal length headers),
  bitvec 0.17 (`BitVec<Msb0,u8>`: `push`, `truncate`, `+=` as ripple-carry addition, dead bits of the last byte are zero),
  gearhash 0.1 (`hash = (hash << 1) + table[b]`, match when `hash & mask == 0`), SQLite (tables, `INSERT OR IGNORE/REPLACE`, transactions,
  blob comparison = memcmp then length), std path/fs behaviour as described in `Model/Fs.lean`.
* Not modelled: command-line parsing (structopt), colours, formatting done by libraries (`Fmt`: lossy display of paths that are not UTF-8, decoded CBOR values, patches, errors), logging, glob matching (a parameter), the line-diff
  algorithms of crates `diff`/`difference` (parameters), memory limits. Queries of database and cache always succeed, except in Model/Flaky.lean (C98), where any of them may fail. Processes running at the same time are modelled
  for the database (C70), the cache (C107) and both together (C108); SQLite's locking protocols are assumed, and nothing is said about how long a process waits for a lock. In C70 and C108 the files a process reads stand still; in C107 they may be changing. SQLite rolling back a transaction by itself after some errors is
  modelled apart (Model/Auto.lean), and shown to make no difference (C91).

### Simplifications by layer

* Decoder: what serde_cbor reads is a parameter, `class Serde` (Model/Serde.lean), with the eleven laws `LawfulSerde`: it never panics, it inverts the encoder (further attributes of a commit
  come back in some order; attributes nested beyond its limit of 128 do not), it does not read a commit as an item or an item as a commit, and empty data are neither. All theorems about stored data hold for every such decoder
  (`[Serde] [LawfulSerde]`), whatever else it accepts: indefinite lengths, structs given as arrays, floats, tags. `Subset.serde` is one such decoder, for definite-length integers, strings, arrays and maps, which is all the encoder
  produces; examples are computed with it, and the parts of C19 and C23 about data that were not written by the program (cut short, appended to, unknown type names) are about it alone.
  That serde_cbor 0.11 obeys the laws is trusted.
* File system: symbolic links are represented by what they point to (a dangling one by a broken entry; for `insert` and `commit` Model/Links.lean, C94, for `fetch` and `checkout` Model/LinkWrite.lean, C96, and for the commands that compare Model/LinkCompare.lean, C97, and for the whole program, finding the repository included, Model/LinkMain.lean, C101, have them as they are), no permissions or quotas; a listing order is part of the tree. Reads of one file are an arbitrary schedule of
  chunks, interruptions and errors that concatenates to its contents or fails.
* Transactions: BEGIN and ROLLBACK do not fail, except in Model/Start.lean (C102), where a command may run without its transaction; every other write, and COMMIT, fails according to an arbitrary oracle. A killed process leaves either
  the database before or the database after the transaction (SQLite atomicity), and any file system and cache.
* Commands: the arguments are already parsed; an invalid glob pattern (a panic in the code) is not modelled; creating the cache directory and opening the cache succeed except in Model/Start.lean (C102);
  output is a list of abstract records (commit, statistics, patch, key, ...); Model/Text.lean gives their text.
* `World.Step` is one command to its end, one killed command, one command whose process did not start or end as it should (`mainStart`; without a transaction, a process killed before a write is one whose write fails), or an arbitrary edit of files and cache that leaves the databases alone.
  `World.Reachable` starts from worlds whose databases have no rows.
* The hash sets iterated by `compare` are lists with an arbitrary order (parameter `iter`).
