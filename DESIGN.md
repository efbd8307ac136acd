# Formal model of HectorMRC/plotline

## 1. Layout

| directory | content |
|---|---|
| `lean/Verif/Model/*` | The model. Executable definitions, each citing the Rust lines it models and stating its simplifications. |
| `lean/Verif/Spec/*` | Small specifications used by the theorems' statements, written without the model's helpers (last write of a history, replay, overlap of intervals, …) and concrete fixtures. |
| `lean/Verif/Lemmas/*` | Helper lemmas. |
| `lean/Verif/Props/*` | The property theorems, named `Cnn_…`, with concrete non-trivial cases (`example`) beside them. |
| `properties.jsonl` | The properties in words. |
| `MANIFEST.json` | Which theorems settle which property. |
| `seeded/LOG.jsonl` | Wrong programs tried against the theorems. |

Naming: `Cnn_…_partial` is a theorem that covers part of a property that does not hold in full; `Cnn_refuted` proves that the
property as stated is false of the code, by an execution of the model. Other `Cnn_…` theorems state the property or one of its
parts in full.

How to read `seeded/LOG.jsonl`. A wrong program is an edit of the model in a scratch copy. `theorems_failed` lists the manifest
theorems that no longer check, either because their own proof broke (`failed_in_their_own_proof`) or because a lemma under them
did. That is weaker than "the statement is now false": a proof may break although the statement could be proved again another
way, and one broken central lemma takes down every theorem that uses it. So a long list is no measure of how many theorems notice
the edit, and `claims_still_proved: []` shows that no claim named was still proved as it stood, not that each of its theorems was
refuted. Where `examples_failed` is positive a concrete, evaluated case went wrong, which is direct evidence; in about four of ten
attempts none did. Fifteen of those where none did were drawn
at random and audited: for fourteen the negation of a theorem of the broken claim was proved for the edited model (`refuted` names it,
`refutation` is the proof, against the edited copy with the examples removed); for one (`t44/1`) the claim's theorems turned out to be
still true, because they spoke only of transactions without operations registered beforehand, and were tightened. Lines with a `note`
are attempts that were not carried out, or whose list of broken claims was corrected afterwards. `change` gives the edit as it
was made; some of the descriptions in words were corrected after rereading them against it.

The lines with `automatic` at the end of the log are edits of one token made by a script, on the model as it was at different times;
they were added to the log together, at the end, and not one by one. The build was stopped at its first error, so `first_failure` is
one place only, often a lemma, and may be a proof that depends on the text of a definition; nobody determined which claim each edit
breaks. With 2608 of them something no longer built. With 75 everything was still proved (`outcome`). Many of these concern branches
that look unreachable or values that look unobservable, but that was not proved of each, and some may show theorems that are too
weak. Nine, all in `Spec/ByHand.lean`, were repeated on the last model (`again`), and everything was still proved; two in
`Model/Unwind.lean` were repeated as `QQ1/36` and `QQ2/36`.

## 2. Trusted base

* Lean 4.33.0's kernel. No axioms of our own, no `sorry`, no `native_decide`, no `bv_decide`. Only Lean core is imported (no
  Mathlib). Section 7 lists the axioms every theorem depends on: at most `propext`, `Quot.sound`, `Classical.choice`.
* The reading of the Rust source that the model's comments record (file and lines for every definition).
* The behaviour of the standard library as modelled: `BTreeMap`, `Arc::into_inner`, `RwLock` (poisoning included), `OnceLock`,
  `Any::downcast`, `catch_unwind`, `Path::with_extension`/`extension`/`file_stem`/`strip_prefix`; and of `ignore::Walk`,
  `regex` and `clap` (the rules at the heads of `Model/Args` and `Model/Usage`) for the command line tool.
* Of user types only what Rust documents: `Ord` is a total preorder and agrees with `PartialEq` (`Std.TransOrd`,
  `Std.LawfulBEqOrd`, bundled as `LawfulSig`). Equal ids need not be identical; theorems that do not need the laws do not
  assume them.

## 3. What is modelled

| code | model | how |
|---|---|---|
| `plotline/src/id.rs`, `graph/mod.rs` | `Model/Graph` | The B-tree is its list of entries, searched by `compare`. |
| `graph/proxy.rs`, `property.rs` (`Edge`) | `Model/Proxy` | A proxy is an id with an optional cached answer. The source is given at each call, so it may change between calls. |
| `graph/proxy.rs`: any number of proxies kept as values; one shared by threads | `Model/Proxies` | Sequences of calls over sources that change; threads in `OnceLock::get_or_init`, one atomic step at a time. A source whose `get` looks at the very proxy that asks it is left out (no `Source` of the code does). |
| `schema/resource.rs` | `Model/Resource` | Cells of type `RwLock<Box<dyn Any>>` in a growing heap, with a poison flag; handles are pointers. |
| `deref.rs` | `Model/Deref` | `with`/`with_mut` on tuples, any number of members; acquiring a lock twice blocks. |
| `schema/transaction.rs`, `trigger.rs`, `error.rs`, `guard.rs`, `schema/mod.rs`, `ops/save.rs`, `ops/delete.rs` | `Model/Transaction` | See section 4. |
| `trigger.rs:21-47`, `impl_trigger!`: parameters of triggers | `Model/Params` | Any number of parameters, made from a `&Context` by user code that may use all of it. |
| the same, used by several threads | `Model/Interleave` | A small-step machine, proved equivalent to the big-step one; clients with the graph's `RwLock`. |
| `schema/transaction.rs`: contexts, subtransactions and target handles kept side by side | `Model/Contexts` | Sequences of calls on named values, with owner counts of the shared logs. |
| the same, with user code that panics | `Model/UserCode` | Each `Clone` and each comparison is an event that may panic; the logs' locks with their poison flags; how many comparisons a search of the graph makes is a parameter. |
| the same, with destructors of nodes | `Model/Drops` | Who has which log and which target; target handles may outlive the transaction; destructors are events that may panic, in the order of drop glue and of declared fields, with whether the lock of the graph is held. What they do otherwise, and destructors of ids, are left out. |
| `schema/resource.rs:19-43, 166-176`, `schema/mod.rs:63-69`: who has the resources | `Model/Holdings` | Registrations, handles and the schema as owners; destructors may panic. Values that own handles are in `Model/Nest`. |
| `schema/resource.rs:19-43, 166-176`, `deref.rs:67-90`: values that own handles | `Model/Nest` | Handles are outside, inside a value, dropped or forgotten; of values only the handles in them. Closures move one handle. |
| the whole of `schema`, by one thread: guards, transactions, resource handles and their guards kept as values | `Model/App` | Sequences of calls; each transaction is a `World` once it has a context, and holds the lock of the graph until it is dropped. |
| `schema/resource.rs`, `schema/transaction.rs:184-312`: use by destructors | `Model/Unwind` | One thread; panics, `catch_unwind` and destructors run by unwinding; `std`'s rule for poisoning. |
| `document/mod.rs`, `document/lazy.rs` | `Model/Lazy` | Sequential histories over a changing repository; and threads racing in `try_deref`, one atomic step at a time. |
| the same by several threads | `Model/Threads` | Calls that return and calls that wait; each value used by the thread that made it. |
| schemas of lazy documents | `Model/Library` | Any calls of `Model/App`, with `try_deref` on documents in the graph, on targets and on the program's own, over a changing repository. |
| `plugins/interval/src/{lib,node,tree}.rs` | `Model/Interval` | Function by function. `join` need not return, so it has fuel. |
| the same, with user code that panics | `Model/TreePanics` | Each call of `lo`, `hi`, a comparison or the closure may panic. |
| `plugins/interval/src/date.rs` | `Model/Date` | Both encodings, any number of components. |
| `plugins/interval/src/plugin.rs`, `schema/plugin.rs` | `Model/Plugin` | The triggers as programs over the schema model. |
| the same, with user code that panics | `Model/PluginPanics` | A stream tells, for every run of a trigger, at which call of user code it panics; it is kept as one more resource. |
| `plotline-cli/src/{repository,document,main}.rs` | `Model/Cli` | Paths as lists of names, the file system with links and a working directory, one run of the tool per command. |
| `main.rs:22-53`, `lib.rs`, `document.rs:36-61`: the arguments, as clap 4.5 reads what the attributes declare | `Model/Args` | One word at a time; help and complaints are told apart in `Model/Usage`. |
| `main.rs:16-20, 25-57`: what clap does with all other command lines, and the default of `--context` | `Model/Usage` | The status; not what is printed. |
| the `tracing` events of `plotline/src/schema` | `Model/Log` | Which message is logged by which step; three messages that cannot be reached are left out. |
| `document.rs:95-101` with `Debug` of `PathBuf` | `Model/Listing` | The text character by character; which characters are printable is a parameter. |
| `repository.rs:23-86` where directories lack permissions | `Model/Perms` | Each directory may be listed or not, and searched or not (C115); the working directory and those above it may be searched. |
| `repository.rs:43-86` while the file system changes | `Model/Changes` | The walk (`ignore::Walk`) step by step, with another file system at every instant (C119): a name that is in a directory from its being opened to its end is given once, others may or may not be. A directory being read is not moved; it is opened in the instant the walk decides not to skip it. |
| all of these again, where names and words are any bytes: `OsStr`, `to_string_lossy`, clap's checks of values | `Model/OsNames` | A byte is the character of its number, so that all functions on names are the same ones; only matching, printing and the checks are new (C114). |
| the `tracing` events of `plotline-cli` and `document/lazy.rs` | `Model/CliLog` | The walk yields paths and errors in any order; the texts of its errors are given with it. The line at level DEBUG is not written. |
| `main.rs:55-81`, `document.rs:80-114`, `schema/error.rs:8-15`: exit status, standard output, reported error | `Model/Shell` | A standard output with room for some number of lines; what a panic prints is left out. |
| `regex`, as `repository.rs:57` uses it | `Model/Regex` | A parser (with escapes, classes and counted repetitions), proved to read the grammar in `Spec/Regex` (`parse_iff`), and a search; the search is proved right against a relation on positions (`isMatch_iff`). |
| the fixtures: `graph/mod.rs:113-178`, `id.rs:10-26`, `plugins/interval/src/lib.rs:43-132` | `Model/Fixtures` | Function pointers are addresses; their functions return, and always the same. `Debug` is left out. |

`Props/OwnTests` replays every unit test of the pinned commit on the model, as a check of the reading above.

Not modelled: log texts beyond which message it is, `Display`/`Debug` text (that of paths and errors aside), deallocation (other than which nodes and resources are destroyed when, C105 and C113), and performance
(other than how often the interval tree calls user code, C92).

## 4. Transactions and user code

User closures and triggers are values of `Prog`, a syntax tree of API calls with continuations that branch on every answer, so
it has the closures that compute anything between calls. `eval` runs one on the real bookkeeping: the graph and one log of
pending operations per open context. Fuel makes it total; statements are for all fuels, and "never returns" is "no fuel
suffices". `eval` results do not depend on the fuel once it suffices (`eval_mono`).

Simplifications:

* `Clone`, `Ord`, `PartialEq` and `id` of user types are pure. Panics in them are covered where they can leave something
  half done: the commit loop (`Graph.commitCrash`, C20, C21), the interval tree (C91), the triggers of the interval plugin (C104), and all calls of contexts and
  transactions (`Model/UserCode`, C101).
* In `Prog`, a closure of `Target::with`, `Target::with_mut` or of an access to a tuple of resources computes and returns or
  panics; it makes no API calls. One of `Res::with` or `Res::with_mut` may make any (`Prog.resScope`, C62), so the same with
  several resources can be written by nesting; with targets it is covered by `World` (C69).
* The `RwLock` of a log is never poisoned; in `Model/UserCode` it may be, and C101 shows that it is not.
* `Context` handles do not escape their closure (the borrow checker sees to that), except by `std::mem::forget`, which is
  modelled (`Prog.forget`). `Prog` opens subtransactions one inside the other; contexts, subtransactions and target handles
  kept side by side and used in any order are `World` and `Call` (`Model/Contexts`, C67, C68), without triggers; with the guards of
  the graph, several transactions and resources beside them, in any order and also forgotten, `App` and `AppCall` (`Model/App`, C78
  to C80). There, calls made by triggers and closures are calls like any other; that this is what they are is C81.
* Using the schema's own lock inside one of its transactions blocks for ever (`Prog.reenter`).
* All closures of one schema return the same type `V`.
* Closures and triggers with a state of their own (captured cells, statics) can be written in `Prog` by keeping that state in a
  resource of a type nobody else uses; input from outside is left out.
* What destructors do while the thread is panicking already is `Model/Unwind` (C117), for resources and targets; elsewhere calls are not made by
  such destructors. A transaction begun by one is left out (its panics do not poison).
* Several clients (`Sys`, C21, C60): resources are used inside transactions only, guards and transactions are not leaked, and a client
  holds one guard at a time; for one thread `App` has all of these. No `Schema` is `Send` or `Sync` (it holds `Box<dyn Any>` and `Box<dyn Trigger>` without such bounds), so
  safe code can only share it within one thread: the clients of C21 and C60 are tasks of one thread, or threads of a program
  that asserts `Send + Sync` itself. In one thread a client that waits stops the thread.
* Threads (`Crowd`, C110): as `App`, by any number of threads, with resources outside of transactions, leaks and panics; a call that
  does not wait is one step (what it changes is behind a lock held meanwhile). Guards, transactions and contexts stay with the thread that made them
  (`std`'s guards are not `Send`). Whether readers wait for waiting writers is a parameter. That a waiting thread gets a lock once it is
  free (fairness) is not assumed: C110 says who *can* be served.
* `with` inside `with` on one resource, in one thread, succeeds (`RwLock::read` may panic or wait if a writer is queued; within
  one thread none is).

Command line tool: extensions have no `/`; those with a class in a class, an operation on classes, white space in `{}`,
a `(?` other than `(?:`, or an escape for a character by number, a Unicode class or a word boundary are left out (C72), and so are the size and
nesting limits of `regex`; names are text in all properties but C114, by which this makes no difference where they are (`C114_text`); the file system has files, directories, symbolic links and what cannot be read
(`sealed`), where paths lead follows Linux (`Fs.follow`: at most 40 links), all directories may be listed and searched except in C115, and it does not
change during a run except in C119, where reading one file is one instant; the walk yields every visible path once, in any order (hidden and ignored ones are skipped and links
are listed but not followed, except at the context, and the context `-` is taken for the standard input: `Walk` in `Spec/Cli`); a context that ends with
no name is matched as it is written, with single separators; that which paths are ignored is a function of the path
below the context.

Interval plugin: it imports `plotline::property::Extractor`, which the pinned library does not have, so it does not compile
against it. It is modelled with that trait's one method as a pure function. `install` registers the index under another type
than the triggers ask for, which C51 is about.

## 5. Findings

Each of these is a theorem about the model, with the execution in the statement or beside it.

| property | what is false of the code | theorem |
|---|---|---|
| C16 | `with` returns `Ok` without applying anything if the closure leaks its context | `C16_refuted` |
| C20 | a panic in user code during the commit leaves part of a transaction applied | `C20_not_atomic` |
| C30 | `Save` returns `Ok` without registering the node if a trigger poisoned the target and recovered | `C30_refuted` |
| C34 | resource writes of a failed transaction stay | `C34_refuted` |
| C35 | `with_mut` on a tuple naming one resource twice never returns | `C35_refuted` |
| C38 | a thread that loses the race to store a document gets `None` although it was found | `C38_refuted` |
| C40 | a document loaded by the tool's repository does not have the id it was asked for | `C40_refuted`, `C40_never_faithful` |
| C44 | `intersects` answers false for a stored interval after a deletion left a stale maximum | `C44_refuted` |
| C45 | deleting an interval from a node with two children never returns | `C45_refuted` |
| C46 | deletion misses a stored interval behind another with the same `lo` | `C46_refuted` |
| C51 | the plugin's index does not exist for any node type that is not its own id type; where it exists saves leave stale entries, transactions that fail leave and lose entries, and deletions may hang | `C51_refuted`, `C51_inert`, `C51_stale`, `C51_aborted`, `C51_hangs` |
| C52 | directories, and links that lead nowhere, with the extension are listed as documents | `C52_refuted`, `C52_context_itself` |
| C53 | no command of the tool changes the disk | `C53_refuted`, `C53_never_durable` |
| C54 | a file with another dot in its name is listed under an id that does not load it | `C54_refuted` |
| C57 | `rotate_left` breaks the search order between equal `lo` | `C57_refuted` |
| C72 | `-e '(md\|txt)'` lists `a.md` and `a.txt` as one document that cannot be loaded; `-e tar.gz` lists `c.tar-gz`; `-e '('` panics | `C72_two_extensions`, `C72_wildcard`, `C72_invalid` |
| C114 | a document whose name is no text is listed and cannot be deleted; `-e �` lists documents which do not exist | `C114_nameable`, `C114_replacement` |
| C115 | documents in a directory that may be listed but not searched are listed and cannot be loaded; where a directory may not be listed the status is 0 all the same, and only the log tells | `C115_example`, `C115_log` |
| C119 | a document that is moved while the tool walks over its context may be missing from the listing, or be listed twice; a link that takes the place of a directory between two steps of the walk is followed | `C119_moved`, `C119_twice`, `C119_link` |
| C73 | the ids `/c`, `../b`, the empty one and those through a link load files outside of the context | `C73_refuted`, `C73_absolute`, `C73_parent`, `C73_empty`, `C73_link` |
| C76 | `b`, `./b` and `b.txt` load the same file but are different nodes; `plot doc ./b delete` finds nothing to do | `C76_refuted`, `C76_dot`, `C76_iff_partial` |
| C82 | a proxy whose public field `id` is assigned after the first look gives the node of its old id, while `id()` and `is_virtual()` go by the new one | `C82_refuted` |
| C86 | the tree misses intervals that `intersects` finds one by one, if they or the query are inverted | `C86_refuted` |
| C88 | a document whose name begins with `-` is listed but cannot be named on a command line; one named `list` only as `list/` | `C88_refuted`, `C88_reserved` |
| C90 | `plot doc list \| head -1` panics with status 101 if there is more than the pipe takes | `C90_list` |
| C91 | an insertion into the interval tree during which user code panics loses all intervals | `C91_refuted`, `C91_lost` |
| C92 | the interval tree is never balanced (the rotations are dead code): intervals inserted in order make a list, and every call goes through all of it | `C92_refuted`, `C92_sorted`, `C92_enumeration` |
| C95 | a context given by a link is not the directory it leads to: the empty id loads another file, and after 40 links a document that is a link is not loaded | `C95_refuted` |
| C96 | directories, links that lead nowhere and unreadable files are listed and cannot be loaded; hidden documents, and those in a directory that a link leads to, can be loaded and are not listed | `C96_refuted`, `C96_listed_partial`, `C96_loaded_partial` |
| C60 | a closure asking for its own schema's lock stops all clients for good | `C60_reenter_blocks` |
| C103 | a document that was loaded after `get` is fetched again by the next `get`, any number of times: what is found is stored in a clone | `C103_refuted`, `C103_asked_again` |
| C104 | a panic of user code while the index is being changed makes the index unreadable for good; saves and deletes go on to succeed without it, and only the log tells | `C104_refuted`, `C104_gone_for_good`, `C104_silent`, `C104_logged` |
| C106 | committing runs the destructors of nodes it puts out with the schema locked: one that uses the schema never returns, and one that panics leaves the transaction stored in part | `C106_lock_refuted`, `C106_atomic_refuted`, `C106_commit` |
| C100 | listing a directory that does not exist ends with status 0 and an empty listing, only the log tells | `C100_no_context` |
| C100 | "document not found" is logged exactly if the document was found, by a call that lost the race to store it | `C100_not_found`, `C100_documents` |

## 6. Properties: result and method

| id | property | status | method |
|---|---|---|---|
| C01 | Graph is a last-write-wins map | proved | Refinement of the entry list to `K → Option T`; induction over call histories; spec `lastWrite` scans the history. |
| C02 | contains agrees with get | proved | Both functions search the same list; induction over the parent chain for contexts. |
| C03 | Graph iteration is complete, duplicate-free and ascending | proved | Invariant: entries strictly ascending with key = id of the value up to `compare`; induction over histories. |
| C04 | Building a graph from an iterator: last duplicate wins, order is otherwise irrelevant | proved | Folding of inserts; permutation induction for distinct ids. |
| C05 | A node proxy over a graph tells the truth | proved | Invariant over histories of calls on a proxy, with a source that changes arbitrarily between calls. |
| C06 | A node proxy freezes its first answer | proved | Invariant over histories of calls on a proxy, with a source that changes arbitrarily between calls. |
| C07 | Successors are exactly the edges of the stored node | proved | Definition unfolding for one level; induction over walk length against the inductive relation `Path`. |
| C08 | Read your writes through any depth | proved | Replay lemma: reading through a chain of logs is reading the graph with the logs replayed outermost first, for every state reachable by any program. |
| C09 | Open subtransactions are invisible to everyone but themselves and their own descendants | proved | Reading a context looks only at its own chain; chains of non-descendants do not contain the written frame. |
| C10 | A committed subtransaction publishes exactly its view to its parent | proved | Appending the child's log to the parent's is replaying it after the parent's. |
| C11 | A failed subtransaction leaves no trace in its parent | proved | Programs only append to logs of contexts they name (C19); closing drops the child's. |
| C12 | A failed transaction does not change the graph | proved | `eval` never changes the graph; only the commit does. |
| C13 | A successful transaction installs exactly what its context showed | proved | Commit is replay of the root's log, which is what the root context reads (C08). |
| C14 | Committed operations apply in issue order with aborted subtransactions cut out | proved | Simulation with an independent interpreter that threads one list of operations; and a script language with its own semantics. For closures that use the contexts around them or forget theirs: the operations that count, read off the calls made one by one (C81). |
| C15 | Nested transactions behave like copy, run, replace | proved | Simulation with a copy/replace interpreter on functions `K → Option T`. |
| C16 | Ok means applied | partial | Counterexample, and: the log is applied in full unless the root context is forgotten, which the small-step machine does only in a step that forgets context 0. |
| C17 | A panicking transaction does not brick the schema | proved | `eval` does not read the poison flag; induction over histories of transactions. |
| C18 | A transaction that registers nothing changes nothing | proved | A program without writes leaves all logs empty: induction on fuel over all triggers. |
| C19 | Pending operations are append-only and confined to the contexts a program was given | proved | Induction on fuel: logs grow by suffixes; frames not in scope are untouched. |
| C20 | A crash in the middle of a commit | proved | The loop stops at a prefix; `C20_transaction` connects it to what contexts read. |
| C21 | Transactions on one schema are serializable | proved | Invariant `Served` over runs: the state is that of serving the finished transactions one by one with at most one in progress; the small-step machine is proved equivalent to `eval`. |
| C22 | Save stores exactly the node | proved | Evaluation of the closures of `Save`/`Delete` on an arbitrary state without triggers. |
| C23 | Delete removes exactly the node, or reports Noop | proved | Evaluation of the closures of `Save`/`Delete` on an arbitrary state without triggers. |
| C24 | Triggers can veto: a failing Save or Delete has no effect on the graph | proved | C11/C12 instantiated with the closures of `Save`/`Delete` and arbitrary triggers. |
| C25 | Triggers run in registration order, once each, only for their scheduler, and stop at the first failure | proved | Refinement of the trigger map to the list of registrations; induction over the list of triggers, spec `Fires`. |
| C26 | What BeforeSave triggers leave in the target is what is saved | proved | Symbolic evaluation of the closures around arbitrary trigger runs. |
| C27 | Delete removes the requested id whatever triggers do to the target | proved | Symbolic evaluation of the closures around arbitrary trigger runs. |
| C28 | Before-triggers see the old state, after-triggers see the new state | proved | Symbolic evaluation of the closures around arbitrary trigger runs. |
| C29 | Trigger subtransactions stand or fall with their operation | proved | The log of `Save`/`Delete` contains what triggers committed, C13 brings it to the graph. |
| C30 | Save Ok means the node was registered | partial | Counterexample, and: without panics inside `target().with_mut` the target stays readable (invariant over all programs). |
| C31 | Resources: the last registration wins, existence is registration | proved | Histories of registrations, handles, reads, writes; invariant relating handles to registrations. |
| C32 | Resource writes are shared | proved | Histories of registrations, handles, reads, writes; invariant relating handles to registrations. |
| C33 | A writer that panics disables the resource | proved | Histories of registrations, handles, reads, writes; invariant relating handles to registrations. |
| C34 | Failed transactions and resources | partial | Counterexample; for what holds, the small-step machine changes only the cells of resources asked for with `with_mut`. |
| C35 | Tuple access is all or nothing | partial | Induction over the members. |
| C36 | A lazily loaded document never changes once loaded | proved | Histories of events over any number of lazy documents, induction over the later part. |
| C37 | A missing document is retried | proved | Histories of events over any number of lazy documents, induction over the later part. |
| C38 | Lazy loading is safe under concurrency | partial | Invariant over arbitrary schedules, including when the cache was filled while a call was between its two accesses. |
| C39 | A document built from content never reads the repository | proved | Histories of events over any number of lazy documents, induction over the later part. |
| C40 | A lazy document keeps the id it was listed under | partial | Histories of events over any number of lazy documents, induction over the later part. |
| C41 | Interval intersection is geometric overlap | proved | Order reasoning from the laws of `Ord`. |
| C42 | Interval tree membership query is exact under inserts | proved | Invariants (search order, max bounds / is exact) over histories of insertions and completed deletions. |
| C43 | Interval enumeration reports every intersecting interval exactly once | proved | Invariants (search order, max bounds / is exact) over histories of insertions and completed deletions. |
| C44 | Interval tree membership query is exact after deletions | partial | Invariants (search order, max bounds / is exact) over histories of insertions and completed deletions. |
| C45 | Interval deletion terminates | partial | Characterisation of `delete` and of the divergence of `join` by induction. |
| C46 | Interval deletion removes exactly one stored copy of the interval | partial | Characterisation of `delete` and of the divergence of `join` by induction. |
| C47 | Interval tree shape invariants | proved | Invariants (search order, max bounds / is exact) over histories of insertions and completed deletions. |
| C48 | Rotations preserve contents and maxima | proved | Case analysis on the rotated node, with recursive invariants. |
| C49 | Dates are totally ordered | proved | Lexicographic induction over component lists. |
| C50 | Date order is lexicographic from the most significant component | proved | Lexicographic induction over component lists. |
| C51 | The interval plugin's index mirrors the graph | partial | Symbolic evaluation of the triggers for any history; an invariant splitting the index into the intervals of the nodes in the graph and stale ones, by filtering on node ids; counterexamples on concrete schemas. |
| C52 | CLI list prints every document once, in order | partial | Characterisation of `with_extension` by induction on names; sortedness and permutation invariance of the graph (C03, C04). |
| C53 | CLI changes are durable | partial | Case analysis of the commands. |
| C54 | CLI ids lead back to the file | partial | Characterisation of `with_extension` by induction on names; sortedness and permutation invariance of the graph (C03, C04). |
| C55 | CLI ids are unique per file | proved | Characterisation of `with_extension` by induction on names; sortedness and permutation invariance of the graph (C03, C04). |
| C56 | CLI commands that need an id fail cleanly without one | proved | Case analysis of the commands. |
| C57 | Rotations preserve the search order | partial | Case analysis on the rotated node, with recursive invariants. |
| C58 | Dates are points as intervals | proved | Lexicographic induction over component lists. |
| C59 | CLI save and delete act on exactly the given id | proved | Evaluation of the closures of `Save`/`Delete` on an arbitrary state without triggers. |
| C60 | Clients of one schema do not deadlock, unless a closure asks for a lock its own transaction holds | proved | Progress: every reachable client state has a step unless blocked by a holder; the holder is unique by C21_exclusion. |
| C61 | Trigger cascades end when the triggers are layered; a trigger doing what it is scheduled on never ends | proved | Termination: induction on the rank of the scheduler, then on programs. Divergence: strong induction on fuel, no amount of it yields a result; for triggers and transactions that get to a save or a deletion somewhere, strong induction on the number of steps of the small-step machine to a halt, which the cascade would shorten for ever. |
| C62 | API calls inside with and with_mut of a resource: the lock is held exactly while the closure runs | proved | The list of held locks is an invariant of `eval` (guards nest) and, step by step, equals the scopes on the machine's stack. No self-waiting: a typing discipline on programs (`Prog.Disciplined`), sound because types have their own cells (`Made`). |
| C63 | A transaction depends only on the nodes it looks up | proved | The small-step machine commutes with replacing the graph as long as lookups agree; logs only hold operations the machine registered; a list of operations acts on each id separately. |
| C64 | A transaction changes only the nodes it writes | proved | The small-step machine commutes with replacing the graph as long as lookups agree; logs only hold operations the machine registered; a list of operations acts on each id separately. |
| C65 | Transactions on different nodes commute | proved | The small-step machine commutes with replacing the graph as long as lookups agree; logs only hold operations the machine registered; a list of operations acts on each id separately. |
| C66 | Lookups and iteration determine each other | proved | Strictly sorted lists with the same members are equal. |
| C67 | Contexts and subtransactions held side by side read the last write that counts for them | proved | Invariant over all legal call sequences, relating logs, owner counts and target cells of the values to specifications that read the history only (`lastWriteOf`, `Reads`, `Leaked`, `targetVal`, `targetsInUse`). |
| C68 | Target handles share the target of the context they were taken from | proved | Invariant over all legal call sequences, relating logs, owner counts and target cells of the values to specifications that read the history only (`lastWriteOf`, `Reads`, `Leaked`, `targetVal`, `targetsInUse`). |
| C69 | Calls inside with and with_mut of a target: which ones never return | proved | Invariant over all legal call sequences, relating logs, owner counts and target cells of the values to specifications that read the history only (`lastWriteOf`, `Reads`, `Leaked`, `targetVal`, `targetsInUse`). |
| C70 | A transaction depends only on the resources it uses | proved | The small-step machine commutes with replacing resources that read the same where it asks for them, and changes only cells in use by a writer (an invariant on locks and open scopes ties those to calls of `with_mut`). |
| C71 | A transaction changes only the resources it asks to write | proved | The small-step machine commutes with replacing resources that read the same where it asks for them, and changes only cells in use by a writer (an invariant on locks and open scopes ties those to calls of `with_mut`). |
| C72 | The extension option is a pattern when listing and literal when loading | proved | Correctness of the search by induction over expressions; the parser accepts exactly what a separate grammar of patterns derives (both directions, by induction over derivations and over the length of the input); facts about names and their last dot. |
| C73 | Loading a document reads only files under the context | partial | `Leads` says where a path leads and through how many links; `follow_iff` ties it to the search with a limit. Paths are taken apart (`Leads.split`) and put together (`Leads.append`) at the context; listed ids have no name that goes up. |
| C74 | Resources hold what was done to them, in call order, whatever fails around it | proved | Each step of the small-step machine emits at most one act; what can be read afterwards is that act applied to what could be read before. That a panic is final needs the invariant that a resource under `with_mut` is under nothing else and readable. |
| C75 | Ids on the command line are paths, not strings | proved | The parser characterised by a grammar of spellings (induction on length); C59 does the rest. |
| C76 | Ids that load the same file are the same id | partial | Evaluation of the counterexample; for all pairs of ids by what becomes of the last name, given its stem (`withExt_stem`), which loses nothing but the rest of the name. |
| C77 | Schemas that look the same stay the same, whatever is done with them | proved | Simulation: the small-step machine run on other cells holding the same values, step by step, with the cells of open scopes related (`CellSim`); the graphs are exchanged first by the argument of C63. |
| C78 | Whoever reads the graph, by whatever guard or context, reads what was put there last | proved | Two invariants over all legal call sequences: one relating the graph, its guards and the transactions (each a `World` about the current graph as long as it holds the lock, by exclusion) to specifications that read the history only (`storedAt`, `GuardKept`, `TxKept`, `callsOf`), built on C67; one for resource cells, handles and guards (`resHolds`, `resGuardOf`). Commutation: calls on the graph and calls on resources work on separate parts of the state. |
| C79 | Which calls of a program never return | proved | Two invariants over all legal call sequences: one relating the graph, its guards and the transactions (each a `World` about the current graph as long as it holds the lock, by exclusion) to specifications that read the history only (`storedAt`, `GuardKept`, `TxKept`, `callsOf`), built on C67; one for resource cells, handles and guards (`resHolds`, `resGuardOf`). Commutation: calls on the graph and calls on resources work on separate parts of the state. |
| C80 | Resource guards kept as values show what the resource holds, apart from the graph | proved | Two invariants over all legal call sequences: one relating the graph, its guards and the transactions (each a `World` about the current graph as long as it holds the lock, by exclusion) to specifications that read the history only (`storedAt`, `GuardKept`, `TxKept`, `callsOf`), built on C67; one for resource cells, handles and guards (`resHolds`, `resGuardOf`). Commutation: calls on the graph and calls on resources work on separate parts of the state. |
| C81 | A closure does what its calls do, made one by one | proved | Simulation by induction on fuel: the interpreter of closures (`eval`) against a program that makes the same calls on an `App` (`byHand`, which knows the calls and their answers only), relating frames to transactions and contexts of a `World` (`Twins`), open scopes to guards of resources (`Side`), with the facts about ownership the borrow checker gives (`Prog.Compiles`). |
| C82 | A proxy gives the node of its id, the one there at the first look | partial | C82: an invariant over all call sequences relating each proxy to functions of the history only (`proxyId`, `proxySource`, `Looked`). C83: an invariant over schedules: at most one thread is past the claim, the cell is empty while one is, and what returned is what the cell holds. |
| C83 | Threads sharing a proxy all get the same answer, which is asked for once | proved | C82: an invariant over all call sequences relating each proxy to functions of the history only (`proxyId`, `proxySource`, `Looked`). C83: an invariant over schedules: at most one thread is past the claim, the cell is empty while one is, and what returned is what the cell holds. |
| C84 | The text of a listing tells the ids, and gives them back | proved | A relation between literals and strings, independent of the printer (`Literal`, `Lines`), shown to have one reading by induction; the printer's output is in it for every table of printable characters. With C75 (`Spells`) a line gives back its id. |
| C85 | Components that keep to themselves do not show | proved | A two-sided simulation on `eval`: the states differ in the cells of private types, the trigger lists are two weaves of the same list (`Woven`), a private trigger always returns (induction on `Observes`). Being symmetric, one induction on fuel gives both directions; C77 moves between graphs with the same nodes. |
| C86 | The interval tree answers what comparing one by one does, also for inverted intervals | partial | The enumeration lies between two filters of the stored list, by induction on the tree; insertions make the tree that splitting their list at its first element makes, which gives both answers as functions of the list; the query by the invariant of C42 with the order of bounds only. Counterexamples by evaluation. |
| C87 | The command line is read as the usage has it | proved | A grammar as inductive relations (`Line`, `Items`, `OptionWords`); the reader accepts what it derives (induction on `Items`) and only that (induction on the words). The effects by C75; which paths have an acceptable spelling from `Spells`. |
| C88 | Every listed document can be named on the command line | partial | A grammar as inductive relations (`Line`, `Items`, `OptionWords`); the reader accepts what it derives (induction on `Items`) and only that (induction on the words). The effects by C75; which paths have an acceptable spelling from `Spells`. |
| C89 | A subtransaction is a transaction on what its context shows; closures one by one or together | proved | The state of the lone transaction is embedded, frame by frame, above the frames of the enclosing one (`embed`); `eval` commutes with the embedding, by induction on the fuel. Then induction on the list of closures (`Singly`). |
| C90 | The exit status and what is printed tell how a command ended | proved | The lines by C87, the runs by C72, C75 and C88's lemmas, the text by C84; then the cases of `Ran.exit`. |
| C91 | A panic in user code leaves the interval tree as it was | partial | The functions of the tree again in a monad that counts the calls of user code down to the one that panics (`Risky`); `Steady` says how many there are and what is returned, by induction on the tree. Then induction on the history. |
| C92 | Calls on the interval tree take logarithmic work | partial | `Costs` bounds the number of calls in `Steady` from both sides, by induction on the tree; `Takes` says it by when a call panics. Insertions in order of low bounds make a tree in which nothing is to the left of anything. |
| C93 | Programs cannot break the invariants of components | proved | What a component's triggers do to its resources is a function of the readings (`Prog.acts`), apart from the interpreter; `eval` agrees with it on a group of triggers. Then induction on the fuel: the invariant holds whenever no trigger of a group is in progress, and what avoids the component's types changes none of its readings. |
| C94 | The interval plugin can hang a program and do nothing else to it | proved | In the place of the trigger that may hang is put one that returns (`Softer`); with it the plugin is a component as in C85. Two inductions on the fuel, one for each direction (`eval_tame`, `eval_wild`), move between the two. |
| C95 | Contexts that lead to the same directory are the same | partial | `Leads` says where a path leads and through how many links; `follow_iff` ties it to the search with a limit. Paths are taken apart (`Leads.split`) and put together (`Leads.append`) at the context; listed ids have no name that goes up. |
| C96 | The listed documents are those that can be loaded | partial | `Leads` says where a path leads and through how many links; `follow_iff` ties it to the search with a limit. Paths are taken apart (`Leads.split`) and put together (`Leads.append`) at the context; listed ids have no name that goes up. |
| C97 | Components that keep to themselves can be set up and used in any order | proved | Without either of two components the courses before and after the swap are the same, so C85 relates the two schemas twice; uses come to one end only, so both relations are between the same two schemas, and every resource is outside one of the components. |
| C98 | A transaction that would end alone ends among any other clients, with nothing else happening in between | proved | The abstract machine of C21 halts whenever eval gives a result, blocked or not, and the other way round; a client in its transaction excludes all steps of others, so the number of steps to its end is a variant of every schedule. |
| C99 | What the log tells about a transaction, and what it leaves out | proved | Which line a step of the abstract machine logs is a relation on its configurations. Leaks: a simulation by the same program without its calls of forget, which can only part at a commit that logs. Panics and leaks: invariants of the machine (nothing poisoned, no context leaked). Refused resources: cells keep values of their type. |
| C100 | The log of the command line tool accounts for whatever a listing leaves out | proved | Induction on the entries of the walk, with the facts of C52 on which names match and which paths are below the context; the commands by running the abstract machine of C99. Documents: one step adds one call to the history exactly if it adds its line. |
| C101 | User code that panics inside a call of the library harms nothing but that call | proved | A second model of the calls of C67, in which each piece of user code is a numbered event that may panic, under read or write locks of the logs that record poisoning. Invariant: all locks fresh. Each call is shown to yield a fixed list of events and then the outcome of C67, or to stop at the first event that panics. |
| C102 | Exactly which user code each call of the library runs, and in which order | proved | The lists of events of C101, spelled out in terms of the pending operations. |
| C103 | A document in a schema is fetched from the repository at most once | partial | Loads are changes inside of nodes, calls of C78 like others; without them the calls are those that put documents. Invariant over all legal call sequences: the graph has what was put, with what was found first since. Then a loop of get and load, which changes nothing in the schema. |
| C104 | A panic in the interval plugin's user code costs the operation it interrupts and nothing else | partial | The triggers of the plugin with a stream that tells when user code panics, over the tree of C91. Invariants as in C93, with a journal beside the index; single operations by running the one trigger (`Prog.acts`). The loops call user code a fixed number of times, by C91. What is logged is followed step by step (`Lemmas/PluginLog`). |
| C105 | Every node is destroyed once, when nothing has it any more, and nothing is left behind | proved | Owners of each log and target are counted (`Model/Drops`). Nodes are counted, for every predicate on nodes, over the graph, the logs and targets with owners, and those destroyed: each call keeps the balance, whatever destructors panic. The owners of logs are those of the invariant of C67; what a commit destroys is by induction over the log. |
| C106 | Destructors of nodes may use the schema, and may panic | partial | As C105, with which destructor panics: drop glue goes on after one panic and aborts on the second. Counted panics decide how a call ends. Two literal executions refute the claims. |
| C107 | Closures and triggers can be rewritten by the laws of maps without anyone noticing | proved | The laws are an inductive relation (`Law`), closed under the constructors of programs (`Same`). Firing triggers is made a parameter of the interpreter (`evalBy`, by recursion on the program; `fireBy` ties the knot level by level, and agrees with `eval`). States are related if lookups, targets, cells and what each log says of each id agree; every law gives related results for related states and firings, so does every constructor, hence by induction on the levels whole schemas do. C77 moves between cells. The form that looks first is by induction on the closure, with the laws. |
| C108 | A trigger's parameters are made before it runs, and what it does with its Ctx it does by whole transactions | proved | Making a parameter is a program in continuation style (`Model/Params`); that it gives a value, or breaks, whatever the continuation, is by induction on it, then on the list of parameters. Code that has a `Ctx` is a syntax of its own with two meanings, as a trigger and on a schema (`ActsOn`); both inductions use C89 for its transactions. |
| C109 | What no program can tell apart is the same by the laws | proved | Normal forms by C107, as trees of lookups and reads (`Asking`). Any lookup can be made first, any read that happens on every way; what was found out need not be asked again (`look_first`, `read_always`, `learnt`), so induction on one tree, with an induction on the other inside, matches them. What can be found from places in programs (`Sight.Real`) is realised by schemas and the three programs. The other direction is C107 below the constructors of programs. |
| C110 | Threads sharing a schema: as if one by one, and who waits for ever | proved | Steps of threads are calls of C78 made by a thread, or waiting; everything is read off the calls that returned and those that wait (`Hinders`, `Deadlock`), by C79. A deadlock is preserved by every step (only its members could let go); going backwards, letting go and being served make no deadlock. So let all who do not wait let go of all they have (a transaction by `Closable`: innermost contexts first), serve somebody who can be served, and repeat: those left over are a deadlock. |
| C111 | Help, complaints and the status a shell sees before anything runs | proved | A second reader of command lines (`Model/Usage`) with what is looked at late. What can be looked at may be looked at at once (`settle_words`), so that what runs is what `Model/Args` has; what cannot is only rescued by a subcommand (`sour_shown`). Then induction on the length of the line, as for C87. |
| C112 | The test fixtures | partial | Case distinction on which functions are set. The contract of Ord fails because the derived Ord compares the addresses of the functions (`C112_refuted`); it holds exactly if no two functions return equal bounds. |
| C113 | Resources are destroyed when nothing has them, and handles may outlive the schema | proved | What was destroyed is what has strong count 0 (`Sound`), up to the cell about to be let go: each drop restores this (`letGo_sound`, `dropSet_sound`). The count is positive exactly if the history says something has the value (`HInv.owned`), by induction on the history (`keeps_inv`). Panics are counted along. |
| C114 | File names and arguments that are not text | proved | The relation `Lossy` (what a character begins with, `Begins`, and what is given up) is a function (`lossy_iff`). Where names are matched it is put before the search of C72; a plain extension is ASCII or not, but decoding goes on after it alike (`lossy_ends`), so that `osPlot` is `plot` in bytes. The printed lines are read backwards chunk by chunk. Words are checked after the reading of C87, which looks at bytes for options and names only. Everything commutes with `bytesOf` (`Lemmas/OsPath`, `OsRun`): the order, splitting at dots and slashes, links, the walk. |
| C115 | Directories that may not be listed or searched | proved | A directory that may not be searched is like one sealed: paths lead in the file system where it is to where they lead by permissions (`followBy_mask`, `leadsBy_iff`), also if what cannot be reached is cut off, which leaves a closed file system (`cut_closed`). Walks by permissions are walks of the sealed file system in which what is not reached is ignored (`walkBy_mask`). So C72, C52 and C96 carry over. That nothing is left out if the walk fails nowhere is by induction along the names of a path. |
| C116 | Resources that own handles are destroyed with their owners, unless in a circle | proved | `Pend` is the invariant while handles wait to be dropped: what is destroyed is what is not owned, but for the work list; each step of `dropAll` keeps it (`letGo_pend`, `dropAll_pend`), and it is empty between calls (`leaves_inv`). `Pend.order` says that owners come first, from which destroyed values are `Lost` by induction on their place in the list, and back by induction on `Lost`. `C116_kept` is by induction on the number of owners, near and far. |
| C117 | A panic in with_mut disables the resource, unless the thread was panicking already | proved | `LatchRun` says what a run did to the locks and how its trace begins and ends; runs can be put together (`LatchRun.trans`), so it holds of all programs by induction on them (`run_ran`). |
| C118 | Invariants of the graph that triggers check hold | proved | In the copy-run-replace reading of C15 (`copyRun`), by strong induction on the fuel: a program that goes through `Save` and `Delete` changes its map only by theirs (`copyRun_through`), a `Save` that returned `Ok` ran all its triggers (`copyRun_saveBody`, `copyEach_last`), so the check did; other triggers have less fuel. C15 carries it to contexts and graphs. |
| C119 | Documents that come and go while the tool runs | proved | The walk is a machine driven by events: time going by, a name given, the end of a directory (`Model/Changes`). Three invariants by induction on the events: what is read or yielded was met (`sound`), what lasts is yielded or still to be given by a directory being read (`due`), and what is still to be given was not yielded, nor anything below it (`once`). A directory cannot end before it has given what stayed in it, so `due` ends in the output. At rest the two sides meet, which gives `Walk` of the other properties. The number of steps is that of the names given, which are different files. |
| C120 | Of ids nothing but their equality matters | proved | The machine on the renamed program goes through the renamed states (`eval_rename`), by induction on the fuel: ids are given to the library by programs and never given back, so programs can be renamed with no way back from new ids to old ones. Searches of logs only ask for equality; graphs need only agree on lookups (`GraphLike`), from which iteration agrees as a set. `C120_needed` saves one node and looks another one up. |
| C121 | The library does not look into nodes and resources | proved | Parametricity of the machine (`eval_pairs`): a relation between nodes that keeps ids and any relation between values of resources extend to logs, graphs, targets, cells, programs and triggers, and running keeps to it. `Prog.Matches` is the only thing asked of programs. `C121_needed` saves one node and looks it up. |
| C122 | Of the types of resources nothing but their equality matters | proved | The machine of C121 with nodes and values related by equality and another order behind the map of resources (`Sig.reordered`): after the same registrations the last one of a type is found under any lawful order (`resourcesAfter_get`). The translation of programs (`Prog.reorder`) only changes the order in their type; the other direction uses that it is injective on answers. |
| C123 | Of intervals nothing but the order of their bounds and their equality matters to the tree | proved | Parametricity of the tree: `TreeLike` relates trees node by node, with the kept maxima being upper bounds of intervals that stand for each other, and every operation keeps to it. Nothing is asked of the order. The concrete case goes from days to hours with another origin, and from spans kept as two ends to spans kept as start and length. |
| C124 | Of intervals nothing but the order of their bounds and their equality matters to the plugin | proved | C121 and C123 together: the values of resources are related by `PluginLike` (extractors that agree up to the relations, trees that are `TreeLike`), the triggers of the plugin match themselves (`onSave_matches`, `onDelete_matches`), so that installing keeps to the relation; `did_pairs` is the same for histories of saves and deletions. The concrete case is the stale interval of `C51_stale`, in hours. |
| C125 | A directory of documents can be somewhere else | proved | `SameNames` and `SameBelow` say what is the same, `LeadsWithin` which ways do not leave the directory. Commands: the graph holds only documents known by their ids (`schema_entries`), so by C72 both schemas are equal. Loading: such a way is there in the other place too (`LeadsWithin.moved`), and without links every way of an id that stays is one (`stays_within`). Ids that leave the directory are C73. |

What partial ones miss:

* C16: False of the code as stated: C16_refuted shows a closure that leaks its context gets Ok while nothing is applied. Characterised exactly: Ok means that everything registered is applied, unless the closure forgot the context it was handed, and then nothing is (C16_ok_means_applied_or_forgotten_partial).
* C30: False of the code as stated: C30_refuted shows a trigger that poisons the target lock and recovers makes Save return Ok without registering anything. Proved for trigger sets that do not panic inside target().with_mut; for any triggers, Ok means that the node is registered unless the before-triggers left the target unreadable (C30_ok_registered_or_unreadable_partial).
* C34: Refuted as stated: resource writes of a failed transaction stay (C34_refuted). Proved: a failed transaction leaves the graph, triggers, registrations and every resource untouched, except the resources that it or a trigger asked for with with_mut (C34_only_what_it_writes_partial).
* C35: Refuted as stated: with_mut on a tuple holding one resource twice never returns (C35_refuted). Proved for any number of members: with in general, with_mut for members referring to different resources, and exactly when with_mut waits for ever (C35_with_mut_waits_iff_partial).
* C38: Refuted in its last part: the thread that loses the race to store the document gets None although the repository found it (C38_refuted). Proved: agreement, a stable cache, and exactly that a call whose lookup found a document returns it unless another thread stored one during the call (C38_found_or_lost_partial).
* C40: The id never changes (proved). The second part is refuted for the CLI repository; proved for repositories that answer with a document of the requested id, and for the CLI repository exactly when it holds (C40_cli_exact_partial).
* C44: Refuted as stated: a stale maximum left behind by a deletion makes intersects answer false for a stored interval (C44_refuted). Proved: a true answer is always right, the answer is exact for queries that overlap no deleted interval, and exactly which queries miss (C44_misses_iff_partial).
* C45: Refuted as stated: deleting an interval stored in a node with two children never returns (C45_refuted). Proved: deletion returns exactly when the node it finds, if any, has at most one child.
* C46: Refuted as stated: a different interval with the same lo hides the stored one, and delete returns without removing it (C46_refuted). Proved: at most one copy equal to the given interval goes and nothing else changes; one is removed when no different stored interval shares its lo; and exactly when one is removed (C46_removes_iff_partial).
* C51: False of the pinned code: install registers the tree under another type than the triggers ask for, so for every node type that is not its own id type the index never exists (C51_refuted, C51_inert for every history). Where it exists, saves over a node leave stale intervals (C51_stale), so do transactions that fail, which also lose intervals of nodes that stay (C51_aborted), and deletions may hang (C51_hangs). Proved where it exists, for every history whose operations return: it is what the insertions and deletions of the intervals of the saved and deleted nodes make (C51_built_partial), it never lacks an interval of a saved node in the graph and holds nothing but intervals of nodes saved at some time (C51_complete_partial), and so do its reports (C51_queries_partial); any history of saves, and exactness for histories that do not overwrite, return, and have intervals told apart by their low bound.
* C52: False of the code: a directory, or a link that leads nowhere, whose name has the extension is listed as a document (C52_refuted), and so is a context named by nothing but the extension (C52_context_itself); with the context - nothing is listed (C72_stdin). Proved: apart from these the listing is exact, ascending, and independent of the walk (C52_list_exact_partial).
* C53: False of the code for every input: no command writes to disk (C53_never_durable, C53_refuted).
* C54: False of the code for names with another dot (C54_refuted). Proved: it holds exactly for the names without one.
* C57: Refuted for rotate_left with equal lower bounds (C57_refuted). Proved for rotate_right, and exactly when rotate_left keeps it (C57_rotate_left_iff_partial).
* C73: False of the code: absolute ids, ids with .., the empty id and ids through a link load files outside of the context (C73_refuted). Proved: ids that end with a name and do not leave the context on their way load only files under it if there are no links under it (C73_confined_partial), which listed ids do (C73_listed_partial); without links on the way, exactly which file every relative id loads and exactly when it is under the context (C73_where_partial); what the others load (C73_dot, C73_absolute, C73_parent, C73_empty, C73_link).
* C76: false of the code (C76_refuted): with_extension replaces what follows the last dot of an id and join drops a leading ./, so b, ./b and b.txt load the same file but are different nodes. C76_all_partial says for all pairs of ids exactly when they load the same path: they stand for the same path under the context, or for paths in one directory whose last names have the same stem; C76_iff_partial is this for ids that start with a name, in terms of the ids themselves; C76_no_dots_partial proves the property for ids without dots in the last name.
* C82: The last sentence is false of the code (C82_refuted): id is a public field, and assigning it after the first look leaves the node of the old id. Proved for proxies whose id was not assigned (C82_own_id_partial); the rest is proved for all sequences.
* C86: False of the code (C86_refuted): both queries miss an inverted interval, and miss intervals if the query is inverted, where comparing one by one finds them. Proved for all intervals: no false positives (C86_sound_partial); what for_each_intersection misses ends before the query begins (C86_reported_partial); intersects misses nothing that begins no later than the query ends and ends no sooner than it begins (C86_answer_partial); and exactly what both queries find after any insertions, from their order (C86_exact_partial). For proper intervals it is C42 and C43.
* C88: False of the tool (C88_refuted): a document whose path begins with - is listed but no command line names it. Proved: a path can be named exactly if it does not begin with -, or is - (C88_nameable_partial); every other listed document can be deleted (C88_listed_partial). Those named like an action need a trailing separator (C88_reserved).
* C91: False of the code (C91_refuted): insert and delete take the root out first, so a panic in between loses every interval. Proved: when a call panics, and that an insertion or deletion that does leaves the empty tree while queries leave it as it was (C91_panics_partial, C91_lost); any history of panicking and other calls leaves what the insertions and deletions since the last panicking one build (C91_history_partial, C91_again); queries that panic change nothing and have reported the first of what they report (C91_queries_partial).
* C92: False of the code (C92_refuted): the tree is never balanced; inserting in the order of low bounds makes as many levels as intervals, and insert, delete and intersects go through all of them (C92_sorted); for_each_intersection examines every interval for a query before all of them, although it reports nothing (C92_enumeration). Proved: insert, delete and intersects call user code a bounded number of times per level, for_each_intersection per interval (C92_levels, C92_insert); how many levels there may be (C92_shape_partial).
* C95: False of the code for the empty id and after 40 links (C95_refuted), and for the context -, which lists nothing (C95_stdin_refuted). Proved: contexts that lead to the same directory never load different contents under any other id (C95_agree), the one with no more links loads all that the other loads (C95_load_partial), and they list the same ids unless one is - or the pattern matches the name of a context (C95_list_partial).
* C96: False of the code (C96_refuted): what is listed need not be a file, and links to directories are not followed by the walk. Proved: what loading a listed id gives, for every kind of thing listed (C96_listed_partial); of what can be loaded, exactly what is listed: all but what is hidden, ignored or reached through a link to a directory (C96_loaded_partial); and the equivalence where there are no links (C96_iff_partial).
* C103: The first and the last sentence are false of the code (C103_refuted): get returns clones, so what is found on loading one is not remembered, and whoever gets the document again asks again, any number of times (C103_asked_again). Proved: what the document is and when the repository is asked, for every way to reach it (C103_get, C103_tx_get, C103_load, C103_target), and that documents reached by iteration are found at most once (C103_once_partial).
* C104: False of the code (C104_refuted): a panic in any call made while the tree is being changed poisons the index (C104_save_loses, C104_delete_loses), it is never readable again (C104_gone_for_good), and later operations succeed (C104_silent), each logging one line about it (C104_logged). Proved: the operation ends with the panic and stores nothing; panics in the extractor, the id and its first clone leave the index as it was (C104_outside_partial) and, if there are no others, it is exact after any course of uses (C104_sheltered_partial); an index that can be read is never wrong, whatever panicked (C104_never_wrong_partial).
* C106: False of the code, both sentences. Saving a node with the id of one in the graph destroys the old one with the lock held (C106_lock_refuted; exactly when destructors run so is C105_lock). A destructor that panics during a commit leaves the operations up to that one applied and the others not (C106_atomic_refuted, C106_commit). Proved: what panics of destructors do to every call (C106_commit, C106_same, C106_target), when they end the process (C106_ends) and when they poison the schema (C106_poison).
* C112: The last sentence is false of the code (C112_refuted): Ord is derived and compares the addresses of the functions, == what they return. Proved: what compares equal is equal, and when the converse holds (C112_contract_partial); everything else in full.

## 7. Axioms

As printed by `#print axioms`, for every theorem in `MANIFEST.json`.

**none** (1): `C20_prefix`

**`propext`** (39): `C05_proxy_truthful`, `C06_fresh_reads_source`, `C06_is_virtual_current`, `C07_after_calls`, `C14_registered_before`, `C16_refuted`, `C17_poison_is_harmless`, `C20_not_atomic`, `C25_first_failure`, `C30_refuted`, `C34_refuted`, `C35_refuted`, `C35_all_or_nothing`, `C38_refuted`, `C48_inorder`, `C49_big_endian_total`, `C51_saves_partial`, `C51_aborted`, `C56_no_id`, `C57_rotate_right`, `C57_rotate_left_partial`, `C57_rotate_left_iff_partial`, `C77_trigger_resource`, `C82_successors`, `C86_refuted`, `C91_refuted`, `C99_graph`, `C99_missing`, `C100_silent`, `C102_target`, `C104_refuted`, `C108_library`, `C112_refuted`, `C113_write`, `C117_careful`, `C117_aborts`, `C118_last`, `C118_unchecked`, `C123_needed`

**`Quot.sound`, `propext`** (125): `C01_get_last_write`, `C01_insert_returns_previous`, `C01_remove_returns_previous`, `C01_reachable`, `C02_graph`, `C02_context`, `C02_context_call`, `C03_ascending`, `C03_exact`, `C03_once`, `C04_last_wins`, `C04_order_irrelevant`, `C06_first_answer_frozen`, `C06_successors_freeze`, `C07_successors`, `C07_walk`, `C21_serializable`, `C21_any_moment`, `C21_reader_committed`, `C21_reader_stable`, `C21_exclusion`, `C23_delete_present`, `C23_delete_absent`, `C31_last_registration_wins`, `C32_handles`, `C32_write_is_shared`, `C32_write_is_local`, `C32_old_handles_keep`, `C32_new_handle`, `C32_take_is_silent`, `C33_poisoned_for_good`, `C33_others_unaffected`, `C35_with_available`, `C35_with_unavailable`, `C35_with_mut_available_partial`, `C35_with_mut_unavailable_partial`, `C36_never_changes`, `C36_clones`, `C37_retried`, `C37_asks`, `C38_agreement`, `C38_cache_stable`, `C38_only_race_losers_partial`, `C38_found_or_lost_partial`, `C38_loaded_found`, `C38_provenance`, `C39_new`, `C40_never_faithful`, `C40_id_never_changes`, `C40_loaded_id_partial`, `C48_maxima`, `C50_big_endian`, `C50_little_endian`, `C51_inert`, `C51_built_partial`, `C60_reenter_blocks`, `C61_save_in_before_save`, `C61_save_in_after_save`, `C62_released`, `C62_locked_iff_open`, `C66_lookups_determine_iteration`, `C66_iteration_determines_lookups`, `C66_rebuild`, `C72_parentheses`, `C72_load_literal`, `C73_link`, `C73_absolute`, `C73_parent`, `C73_empty`, `C73_dot`, `C75_spelling`, `C75_one_path`, `C75_same`, `C76_dot`, `C80_commute`, `C80_commute`, `C82_refuted`, `C83_agreement`, `C83_waits`, `C83_done`, `C83_panic`, `C84_plain`, `C84_silent`, `C92_shape_partial`, `C95_load_partial`, `C95_agree`, `C98_runaway`, `C99_after_panic`, `C99_target`, `C99_delete`, `C100_documents`, `C100_not_found`, `C101_possible`, `C106_commit`, `C106_same`, `C106_lock_refuted`, `C106_atomic_refuted`, `C107_save`, `C107_delete`, `C112_eq`, `C112_equivalence`, `C112_bounds`, `C112_node`, `C115_read`, `C115_less`, `C115_open`, `C116_panics`, `C117_ends`, `C119_loads`, `C120_start`, `C120_needed`, `C121_session`, `C121_back`, `C121_content`, `C121_needed`, `C122_session`, `C122_transact`, `C122_needed`, `C123_session`, `C123_returns`, `C123_scale`, `C124_session`, `C124_back`, `C124_history`, `C125_load`

**`Classical.choice`, `Quot.sound`, `propext`** (460): `C08_any_time`, `C08_read_your_writes`, `C08_as_graph`, `C08_every_context`, `C08_every_run`, `C08_call`, `C08_registers`, `C09_isolation`, `C09_open_body`, `C10_commit_publishes`, `C11_failure_leaves_no_trace`, `C12_failure_keeps_graph`, `C13_success_installs_view`, `C13_nothing_else`, `C13_stays_reachable`, `C14_replay`, `C14_script`, `C14_every`, `C15_copy_run_replace`, `C15_any_context`, `C16_ok_means_applied_or_forgotten_partial`, `C16_ok_means_applied_partial`, `C17_after_panic`, `C17_history`, `C18_registered_before`, `C18_quiet_keeps_graph`, `C19_append_only`, `C19_trigger`, `C20_transaction`, `C20_otherwise`, `C21_transaction_reads`, `C21_possible`, `C22_save_exact`, `C22_other_triggers`, `C22_in_context`, `C23_other_triggers`, `C23_in_context_present`, `C23_in_context_absent`, `C24_save`, `C24_delete`, `C24_save_in_context`, `C24_delete_in_context`, `C24_before_save_veto`, `C24_after_save_veto`, `C24_before_delete_veto`, `C24_after_delete_veto`, `C25_registration_order`, `C25_all_once`, `C26_target_is_saved`, `C26_graph`, `C27_requested_id`, `C27_graph`, `C28_save`, `C28_delete`, `C29_save_commits_triggers`, `C29_delete_commits_triggers`, `C29_trigger_commit`, `C29_save_in_context`, `C29_delete_in_context`, `C30_ok_means_registered_partial`, `C30_ok_registered_or_unreadable_partial`, `C30_graph_partial`, `C33_reader`, `C34_only_what_it_writes_partial`, `C34_no_trace_partial`, `C34_graph_and_registrations`, `C35_with_mut_waits_iff_partial`, `C35_with_mut_unavailable`, `C40_refuted`, `C40_cli_exact_partial`, `C41_geometric`, `C41_symmetric_reflexive`, `C42_exact_after_insertions`, `C43_enumeration`, `C44_refuted`, `C44_sound_partial`, `C44_exact_partial`, `C44_misses_iff_partial`, `C44_exact_maxima_partial`, `C45_refuted`, `C45_returns_iff_partial`, `C46_refuted`, `C46_at_most_one_copy_partial`, `C46_removes_partial`, `C46_removes_iff_partial`, `C47_shape`, `C47_max_exact_after_insertions`, `C49_little_endian_total`, `C49_consistent_with_eq`, `C50_reversal`, `C51_exact_partial`, `C51_complete_partial`, `C51_queries_partial`, `C51_refuted`, `C51_stale`, `C51_hangs`, `C52_list_partial`, `C52_list_exact_partial`, `C52_walk_order`, `C52_refuted`, `C52_context_itself`, `C52_path_order`, `C53_never_durable`, `C53_refuted`, `C54_iff_partial`, `C54_refuted`, `C55_listed`, `C55_any_extension`, `C57_refuted`, `C58_dates_are_points`, `C59_save`, `C59_delete`, `C60_holder_goes_on`, `C60_no_deadlock`, `C61_layered_ends`, `C61_no_triggers`, `C61_delete_in_before_delete`, `C61_gets_to_save_before`, `C61_gets_to_save_after`, `C61_gets_to_delete_before`, `C62_read_waits`, `C62_write_waits`, `C62_own_cells`, `C62_never_waits`, `C62_reader_sees_no_change`, `C62_writer_is_alone`, `C62_panic_in_with_mut`, `C62_panic_in_with`, `C62_save_inside_waits`, `C62_scope_is_write`, `C63_reads_only_what_it_looks_up`, `C63_same_afterwards`, `C64_changes_only_what_it_writes`, `C64_to_what_it_wrote`, `C65_disjoint_transactions_commute`, `C65_disjoint_resources`, `C67_get`, `C67_contains`, `C67_commit_root`, `C67_graph`, `C67_possible`, `C67_write_independent`, `C67_commit_child`, `C67_no_trace`, `C68_read`, `C68_write`, `C68_set_keeps_handles`, `C68_new_context`, `C69_waits`, `C69_enter`, `C69_inside`, `C69_panic`, `C69_for_good`, `C70_whatever_else`, `C70_other_trigger`, `C70_other_resource`, `C70_depends_on_resources_it_uses`, `C71_changes_only_resources_it_writes`, `C71_old_handles`, `C72_grammar`, `C72_not_written`, `C72_list`, `C72_stdin`, `C72_dots`, `C72_plain`, `C72_classes`, `C72_alternatives`, `C72_counted`, `C72_invalid`, `C72_dots_lead_back`, `C72_two_extensions`, `C72_unanchored`, `C72_wildcard`, `C73_confined_partial`, `C73_listed_partial`, `C73_refuted`, `C73_where_partial`, `C74_history`, `C74_read`, `C74_scope`, `C74_lost`, `C74_stays_lost`, `C75_save`, `C75_delete`, `C76_iff_partial`, `C76_no_dots_partial`, `C76_all_partial`, `C76_refuted`, `C77_indistinguishable`, `C77_same_courses`, `C77_resource_order`, `C77_replaces`, `C77_trigger_order`, `C77_failed`, `C78_get`, `C78_contains`, `C78_iter`, `C78_insert`, `C78_remove`, `C78_replace`, `C78_tx_get`, `C78_tx_contains`, `C79_possible`, `C79_stuck`, `C79_forgotten_guard`, `C79_forgotten_tx`, `C80_peek`, `C80_assign`, `C80_forgotten`, `C81_closure`, `C81_effect`, `C81_reads`, `C82_possible`, `C82_deref`, `C82_agree`, `C82_id`, `C82_is_virtual`, `C82_own_id_partial`, `C83_once`, `C83_graph`, `C84_lines`, `C84_one_reading`, `C84_printable`, `C84_verbatim`, `C84_handle`, `C85_erase`, `C85_insert`, `C85_transaction`, `C85_from_graph`, `C85_plugin`, `C86_sound_partial`, `C86_reported_partial`, `C86_answer_partial`, `C86_exact_partial`, `C87_grammar`, `C87_one_reading`, `C87_usage`, `C87_save`, `C87_delete`, `C87_any_content`, `C88_nameable_partial`, `C88_listed_partial`, `C88_refuted`, `C88_reserved`, `C89_subtransaction`, `C89_such_a_schema`, `C89_together`, `C89_together_ends`, `C89_operations`, `C90_list`, `C90_save`, `C90_delete`, `C90_no_id`, `C90_no_pattern`, `C90_status`, `C91_panics_partial`, `C91_history_partial`, `C91_again`, `C91_lost`, `C91_queries_partial`, `C92_insert`, `C92_levels`, `C92_sorted`, `C92_enumeration`, `C92_refuted`, `C93_transaction`, `C93_session`, `C93_index`, `C94_plugin`, `C94_or_hangs`, `C95_list_partial`, `C95_refuted`, `C95_stdin_refuted`, `C96_listed_partial`, `C96_iff_partial`, `C96_loaded_partial`, `C96_refuted`, `C97_any_order`, `C97_setup`, `C97_plugin`, `C98_bounded`, `C98_layered`, `C98_every_call_ends`, `C99_defined`, `C99_kept`, `C99_only_leaks`, `C99_only_panics`, `C99_quiet`, `C99_careful`, `C99_resource`, `C100_list`, `C100_delete`, `C100_others`, `C100_no_pattern`, `C100_no_context`, `C100_usage`, `C101_at_rest`, `C101_call`, `C101_blame`, `C101_as_if_not_made`, `C101_writes`, `C101_crash`, `C102_get`, `C102_contains`, `C102_none`, `C102_commit`, `C103_get`, `C103_tx_get`, `C103_load`, `C103_once_partial`, `C103_target`, `C103_asked_again`, `C103_refuted`, `C104_never_wrong_partial`, `C104_sheltered_partial`, `C104_gone_for_good`, `C104_outside_partial`, `C104_save_loses`, `C104_delete_loses`, `C104_silent`, `C104_logged`, `C105_once`, `C105_end`, `C105_nothing_left`, `C105_in_use`, `C105_only`, `C105_commit`, `C105_abandon`, `C105_forgotten`, `C105_context`, `C105_handle`, `C105_target`, `C105_lock`, `C105_as_without`, `C105_possible`, `C106_target`, `C106_ends`, `C106_poison`, `C107_transaction`, `C107_endless`, `C107_session`, `C107_same_courses`, `C107_writes`, `C107_look_first`, `C108_parameter`, `C108_execute`, `C108_scheduled`, `C108_client`, `C108_blind`, `C108_save_panics`, `C109_three_programs`, `C109_complete`, `C109_without_triggers`, `C110_one_by_one`, `C110_get`, `C110_peek`, `C110_alone`, `C110_shared`, `C110_resource`, `C110_at_once`, `C110_now`, `C110_stuck_for_ever`, `C110_otherwise`, `C110_served_iff`, `C110_at_rest`, `C110_ordered`, `C111_runs`, `C111_shown`, `C111_wrong`, `C111_not_both`, `C111_main`, `C111_help`, `C111_complaint`, `C111_nowhere`, `C111_status`, `C111_first`, `C111_asked`, `C111_after_escape`, `C112_cmp_same`, `C112_order`, `C112_contract_partial`, `C113_destroyed`, `C113_with`, `C113_when`, `C113_panics`, `C113_replaced`, `C113_register_panics`, `C113_lost`, `C113_read`, `C113_possible`, `C113_nothing_leaks`, `C113_forgotten`, `C114_lossy`, `C114_lossy_text`, `C114_list`, `C114_plain`, `C114_load`, `C114_replacement`, `C114_lines`, `C114_one_reading`, `C114_grammar`, `C114_usage`, `C114_nameable`, `C114_content`, `C114_text`, `C114_text_read`, `C114_text_lines`, `C114_text_walk`, `C115_list`, `C115_loads`, `C115_loaded`, `C115_log`, `C115_all_seen`, `C115_silent`, `C115_example`, `C116_destroyed`, `C116_kept`, `C116_order`, `C116_nothing_leaks`, `C116_possible`, `C116_leaked`, `C116_no_circles`, `C116_moves`, `C117_disabled`, `C117_called`, `C117_late`, `C117_destructors`, `C117_torn`, `C117_bare`, `C117_others`, `C117_waits`, `C118_context`, `C118_transaction`, `C118_history`, `C118_nodes`, `C118_links`, `C118_around`, `C118_diverted`, `C119_glimpsed`, `C119_lasts`, `C119_context`, `C119_still`, `C119_goes_on`, `C119_ends`, `C119_finishes`, `C119_list`, `C119_delete`, `C119_moved`, `C119_twice`, `C119_link`, `C119_path_order`, `C120_session`, `C120_back`, `C120_in_order`, `C120_other_order`, `C122_schedulers`, `C125_run`, `C125_process`, `C125_plain`, `C125_outside`
