{"id": "C01", "title": "Graph is a last-write-wins map", "statement": "After any sequence of Graph::insert / with_node / remove calls, Graph::get(id) returns the node most recently inserted under an id equal to id and not removed since, and None if there is none. insert and remove return exactly the node that get would have returned just before the call.", "quantifier": "every sequence of inserts and removes, every id and node type whose Ord/Eq obey the Rust contract (including ids that compare equal without being identical)", "why_tests_cant": "A test samples a few short call sequences; the claim is about every sequence and every lawful ordering of ids.", "anchors": ["plotline/src/graph/mod.rs::Graph::insert", "plotline/src/graph/mod.rs::Graph::with_node", "plotline/src/graph/mod.rs::Graph::remove", "plotline/src/graph/mod.rs::Source for Graph::get"]}
{"id": "C02", "title": "contains agrees with get", "statement": "For a Graph, and for a transaction Context at any nesting depth, contains(id) is true exactly when get(id) is Some.", "quantifier": "every graph, every tree of open contexts with any pending operations, every id", "why_tests_cant": "Two separately written lookups must agree in every state; tests check one or two.", "anchors": ["plotline/src/graph/mod.rs::Source for Graph", "plotline/src/schema/transaction.rs::Source for Context::get", "plotline/src/schema/transaction.rs::Source for Context::contains"]}
{"id": "C03", "title": "Graph iteration is complete, duplicate-free and ascending", "statement": "Iterating a Graph yields every present node exactly once, in strictly ascending id order, and nothing else; this holds after any history of inserts and removes.", "quantifier": "every history of inserts/removes", "why_tests_cant": "Holds for all sizes and histories; tests fix a size.", "anchors": ["plotline/src/graph/mod.rs::IntoIterator for &Graph"]}
{"id": "C04", "title": "Building a graph from an iterator: last duplicate wins, order is otherwise irrelevant", "statement": "Graph::from_iter(nodes).get(id) is the last node in the iterator with that id; if all ids are distinct the resulting graph (contents and iteration order) does not depend on the order of the iterator.", "quantifier": "every finite iterator of nodes and every permutation of it", "why_tests_cant": "Quantifies over all lists and all permutations.", "anchors": ["plotline/src/graph/mod.rs::FromIterator for Graph::from_iter"]}
{"id": "C05", "title": "A node proxy over a graph tells the truth", "statement": "For a proxy obtained from graph.node(id), is_virtual() is true exactly when try_deref() is None, exactly when no node with that id is in the graph; otherwise try_deref() is that node.", "quantifier": "every graph, every id, every number of prior dereferences of the proxy or of its clones", "why_tests_cant": "Universal over graph contents and over the proxy's access history.", "anchors": ["plotline/src/graph/proxy.rs::NodeProxy::is_virtual", "plotline/src/graph/proxy.rs::TryDeref for NodeProxy::try_deref", "plotline/src/graph/mod.rs::Graph::node"]}
{"id": "C06", "title": "A node proxy freezes its first answer", "statement": "Once try_deref() on a proxy (or on the proxy it was cloned from) has been called, every later try_deref() returns that same answer whatever happens to the source in between, while is_virtual() always reports the source's current state.", "quantifier": "every sequence of source states and proxy calls (deref, clone, is_virtual)", "why_tests_cant": "The source may change arbitrarily between calls (transaction contexts are mutable through shared references); tests cannot enumerate those histories.", "anchors": ["plotline/src/graph/proxy.rs::TryDeref for NodeProxy::try_deref", "plotline/src/graph/proxy.rs::Clone for NodeProxy", "plotline/src/graph/proxy.rs::NodeProxy::is_virtual"]}
{"id": "C07", "title": "Successors are exactly the edges of the stored node", "statement": "proxy.successors::<Edge>() has one proxy per edge of the node, in the order given by Edge::all, each carrying the edge's id and observing the same source; a virtual node has no successors. Walking along successors from any id visits exactly the ids reachable in the graph's edge relation.", "quantifier": "every graph, every edge extractor, every id, every path length", "why_tests_cant": "Reachability is over paths of any length.", "anchors": ["plotline/src/graph/proxy.rs::NodeProxy::successors"]}
{"id": "C08", "title": "Read your writes through any depth", "statement": "At any time, ctx.get(id) answers what the graph would answer if the pending operations of all enclosing transactions (outermost first) and then of ctx itself had been applied to it in the order they were issued.", "quantifier": "every graph, every nesting depth, every list of pending operations per level, every id", "why_tests_cant": "Depth and number of pending operations are unbounded.", "anchors": ["plotline/src/schema/transaction.rs::Source for Context::get", "plotline/src/schema/transaction.rs::Context::save", "plotline/src/schema/transaction.rs::Context::delete"]}
{"id": "C09", "title": "Open subtransactions are invisible to everyone but themselves and their own descendants", "statement": "Saving or deleting in a context never changes what a context that is not that context or one of its descendants reads (parents, siblings, the graph).", "quantifier": "every tree of open contexts, every operation, every id", "why_tests_cant": "Universal over the shape of the context tree.", "anchors": ["plotline/src/schema/transaction.rs::Context::save", "plotline/src/schema/transaction.rs::Context::delete", "plotline/src/schema/transaction.rs::Source for Context::get"]}
{"id": "C10", "title": "A committed subtransaction publishes exactly its view to its parent", "statement": "When a subtransaction's closure returns Ok (and its context was dropped), for every id the parent context then reads what the subtransaction's context read at the end.", "quantifier": "every nesting depth, every body, every id", "why_tests_cant": "Universal over bodies and states.", "anchors": ["plotline/src/schema/transaction.rs::Foreground::commit", "plotline/src/schema/transaction.rs::Transaction for Foreground::with"]}
{"id": "C11", "title": "A failed subtransaction leaves no trace in its parent", "statement": "When a subtransaction's closure returns Err or panics, and the closure did not itself operate directly on the enclosing contexts, every enclosing context reads for every id exactly what it read before the subtransaction started.", "quantifier": "every body (any nesting of further transactions, saves, deletes, triggers), every id", "why_tests_cant": "Universal over bodies, which are arbitrary programs.", "anchors": ["plotline/src/schema/transaction.rs::Transaction for Foreground::with", "plotline/src/schema/transaction.rs::Foreground::commit"]}
{"id": "C12", "title": "A failed transaction does not change the graph", "statement": "If the closure passed to schema.transaction().with(..) returns Err, or panics, the schema's graph is identical to what it was before, whatever saves, deletes, subtransactions and triggers ran.", "quantifier": "every closure program, every graph, every trigger set", "why_tests_cant": "Universal over user programs and failure points.", "anchors": ["plotline/src/schema/transaction.rs::Transaction for Background::with", "plotline/src/schema/transaction.rs::Background::commit"]}
{"id": "C13", "title": "A successful transaction installs exactly what its context showed", "statement": "If the closure returns Ok (and its context was dropped), then afterwards for every id schema.read().get(id) is what the transaction's context would have answered at the moment the closure returned; no other node changes.", "quantifier": "every closure program, every graph, every id", "why_tests_cant": "Universal over user programs.", "anchors": ["plotline/src/schema/transaction.rs::Transaction for Background::with", "plotline/src/schema/transaction.rs::Background::commit"]}
{"id": "C14", "title": "Committed operations apply in issue order with aborted subtransactions cut out", "statement": "A successful transaction changes the graph exactly as replaying, in program order, the saves and deletes issued, where a committed subtransaction contributes its operations at the point where it commits and a failed one contributes none. What was registered on the transaction before its closure runs comes first. An operation that a closure issues on a context around its own counts there, when it is issued, whatever becomes of its own transaction; and nothing is applied if the closure forgot its context.", "quantifier": "every closure program", "why_tests_cant": "Universal over programs; the order matters for repeated ids.", "anchors": ["plotline/src/schema/transaction.rs::Foreground::commit", "plotline/src/schema/transaction.rs::Background::commit"]}
{"id": "C15", "title": "Nested transactions behave like copy, run, replace", "statement": "A transaction (with arbitrarily nested subtransactions, Save/Delete operations and triggers) whose closures use only their own context behaves, in result and in final graph, as if each level worked on a private copy of its parent's whole map and replaced the parent's map on success and discarded the copy on failure.", "quantifier": "every such closure program, trigger set and initial graph", "why_tests_cant": "A refinement statement over all programs.", "anchors": ["plotline/src/schema/transaction.rs", "plotline/src/schema/ops/save.rs", "plotline/src/schema/ops/delete.rs", "plotline/src/schema/trigger.rs"]}
{"id": "C16", "title": "Ok means applied", "statement": "If schema.transaction().with(closure) returns Ok then every operation the closure registered has been applied to the graph.", "quantifier": "every closure program, including one that leaks its context (std::mem::forget)", "why_tests_cant": "Depends on reference counts at commit time for every possible closure.", "anchors": ["plotline/src/schema/transaction.rs::Background::commit", "plotline/src/schema/transaction.rs::Foreground::commit"]}
{"id": "C17", "title": "A panicking transaction does not brick the schema", "statement": "After any transaction panics, later reads and transactions on the schema still work, see the last committed graph, and behave exactly as if the panicking transaction had never been started (resources aside).", "quantifier": "every history of commands containing panics at arbitrary points", "why_tests_cant": "Universal over histories and panic points.", "anchors": ["plotline/src/schema/guard.rs::From<&Schema> for SchemaReadGuard", "plotline/src/schema/guard.rs::From<&Schema> for SchemaWriteGuard"]}
{"id": "C18", "title": "A transaction that registers nothing changes nothing", "statement": "If a closure issues no save and no delete (directly or through Save/Delete/triggers) then the graph afterwards is identical to the graph before, whatever the result. Operations registered on the transaction before the closure runs are then all that is applied, and only if the closure returns Ok and keeps no context.", "quantifier": "every read-only closure program", "why_tests_cant": "Universal over programs.", "anchors": ["plotline/src/schema/transaction.rs::Background::commit"]}
{"id": "C19", "title": "Pending operations are append-only and confined to the contexts a program was given", "statement": "Running any closure or trigger never removes, alters or reorders operations already pending in a context, and never touches a context it was not handed.", "quantifier": "every program, every trigger set, every state", "why_tests_cant": "Universal over programs.", "anchors": ["plotline/src/schema/transaction.rs::Context", "plotline/src/schema/transaction.rs::Ctx", "plotline/src/schema/trigger.rs::Trigger"]}
{"id": "C20", "title": "A crash in the middle of a commit", "statement": "If applying a transaction's operations stops part way (user code called during the commit panics), the graph is what it was before with a prefix of the operations applied, in order, and nothing else. The all-or-nothing claim of the Transaction trait (a set of operations performed as a whole) fails there.", "quantifier": "every list of pending operations, every crash point", "why_tests_cant": "Universal over crash points.", "anchors": ["plotline/src/schema/transaction.rs::Background::commit"]}
{"id": "C21", "title": "Transactions on one schema are serializable", "statement": "For every interleaving of any number of transactions on one schema (opening contexts, reading, saving, deleting, committing, aborting, panicking) and readers, the final graph is the result of running the committed transactions one after another in commit order; each transaction reads from the state left by the transactions committed before it plus its own writes; and a reader sees only committed state, which does not change while its guard is held.", "quantifier": "every interleaving of any number of clients", "why_tests_cant": "Universal over schedules.", "anchors": ["plotline/src/schema/mod.rs::Schema::transaction", "plotline/src/schema/mod.rs::Schema::read", "plotline/src/schema/transaction.rs::Background", "plotline/src/schema/guard.rs"]}
{"id": "C22", "title": "Save stores exactly the node", "statement": "On a schema without triggers on save, Save::new(node).execute(schema.transaction()) returns Ok, afterwards get(node.id()) is node, and every other id is unchanged.", "quantifier": "every graph and node", "why_tests_cant": "Universal over graphs; interaction with existing entries.", "anchors": ["plotline/src/schema/ops/save.rs::Save::execute"]}
{"id": "C23", "title": "Delete removes exactly the node, or reports Noop", "statement": "On a schema without triggers on delete, Delete::new(id).execute(..) returns Ok and removes exactly id if it was present; otherwise it returns Err(Noop) and changes nothing.", "quantifier": "every graph and id", "why_tests_cant": "Universal over graphs.", "anchors": ["plotline/src/schema/ops/delete.rs::Delete::execute"]}
{"id": "C24", "title": "Triggers can veto: a failing Save or Delete has no effect on the graph", "statement": "For any set of triggers (each able to run arbitrary nested transactions), the first trigger to fail makes the Save or Delete return its error, and if Save or Delete returns an error or panics, the enclosing context or graph reads exactly as before.", "quantifier": "every trigger set, every node/id, every graph", "why_tests_cant": "Triggers are arbitrary programs.", "anchors": ["plotline/src/schema/ops/save.rs::Save::execute", "plotline/src/schema/ops/delete.rs::Delete::execute", "plotline/src/schema/trigger.rs"]}
{"id": "C25", "title": "Triggers run in registration order, once each, only for their scheduler, and stop at the first failure", "statement": "Selecting a scheduler and executing runs exactly the triggers registered under that scheduler, in registration order; the first one to fail ends the run and its error is returned; if none fails each has run exactly once.", "quantifier": "every registration history over any number of schedulers, every mix of succeeding/failing triggers", "why_tests_cant": "Universal over registration histories.", "anchors": ["plotline/src/schema/trigger.rs::TriggerSet::with_trigger", "plotline/src/schema/trigger.rs::TriggerSet::select", "plotline/src/schema/trigger.rs::TriggerSelect::execute"]}
{"id": "C26", "title": "What BeforeSave triggers leave in the target is what is saved", "statement": "The node registered by Save is the value held by the target after the last BeforeSave trigger; changes AfterSave triggers make to the target do not alter the saved node.", "quantifier": "every trigger set", "why_tests_cant": "Universal over trigger programs.", "anchors": ["plotline/src/schema/ops/save.rs::Save::execute", "plotline/src/schema/transaction.rs::Target"]}
{"id": "C27", "title": "Delete removes the requested id whatever triggers do to the target", "statement": "When Delete executes, the operation it registers is the deletion of the id it was constructed with, even if BeforeDelete triggers rewrite the target, including its id.", "quantifier": "every trigger set, every id", "why_tests_cant": "Universal over trigger programs.", "anchors": ["plotline/src/schema/ops/delete.rs::Delete::execute"]}
{"id": "C28", "title": "Before-triggers see the old state, after-triggers see the new state", "statement": "The first BeforeSave/BeforeDelete trigger reads the context as it was before the operation; the first AfterSave trigger reads the saved node under its id; the first AfterDelete trigger finds the id absent.", "quantifier": "every trigger set, graph, node, id", "why_tests_cant": "Universal over states.", "anchors": ["plotline/src/schema/ops/save.rs::Save::execute", "plotline/src/schema/ops/delete.rs::Delete::execute"]}
{"id": "C29", "title": "Trigger subtransactions stand or fall with their operation", "statement": "Changes triggers commit through their Ctx become part of the Save/Delete: they reach the graph exactly if the operation (and everything enclosing it) succeeds.", "quantifier": "every trigger set and outcome", "why_tests_cant": "Universal over trigger programs.", "anchors": ["plotline/src/schema/ops/save.rs", "plotline/src/schema/ops/delete.rs", "plotline/src/schema/trigger.rs", "plotline/src/schema/transaction.rs::Ctx::transaction"]}
{"id": "C30", "title": "Save Ok means the node was registered", "statement": "If Save returns Ok the node (as left by BeforeSave triggers) has been registered with the transaction.", "quantifier": "every trigger set, including triggers that poison the target's lock and recover from the panic", "why_tests_cant": "Needs all trigger behaviours.", "anchors": ["plotline/src/schema/ops/save.rs::Save::execute", "plotline/src/schema/transaction.rs::ReadOnly for Target"]}
{"id": "C31", "title": "Resources: the last registration wins, existence is registration", "statement": "After any sequence of with_resource calls, the Res for a type R exists exactly if some value of type R was registered, and reads the last one registered; other types are unaffected.", "quantifier": "every registration sequence over any set of types", "why_tests_cant": "Universal over sequences and types.", "anchors": ["plotline/src/schema/resource.rs::ResourceSet::with_resource", "plotline/src/schema/resource.rs::From<&ResourceSet> for Res", "plotline/src/schema/resource.rs::Res::exists"]}
{"id": "C32", "title": "Resource writes are shared", "statement": "A value written through with_mut on one handle is what every handle to the same registration reads next, and no other resource changes; a handle taken before a re-registration keeps referring to the old value.", "quantifier": "every history of registrations, handle creations, reads and writes", "why_tests_cant": "Universal over histories and aliasing patterns.", "anchors": ["plotline/src/schema/resource.rs::ReadWrite for Res", "plotline/src/schema/resource.rs::ReadOnly for Res"]}
{"id": "C33", "title": "A writer that panics disables the resource", "statement": "After a closure passed to with_mut panics (in a call not made while the thread was panicking already, see C117), every later with / with_mut on that registration returns None without running its closure and exists() is false, until re-registration; a closure passed to with that panics has no such effect; other resources are unaffected.", "quantifier": "every history", "why_tests_cant": "Universal over histories.", "anchors": ["plotline/src/schema/resource.rs::ReadOnly for Res::read", "plotline/src/schema/resource.rs::ReadWrite for Res::write", "plotline/src/schema/resource.rs::Res::exists"]}
{"id": "C34", "title": "Failed transactions and resources", "statement": "A failed transaction has no lasting observable effect (graph and resources).", "quantifier": "every closure program", "why_tests_cant": "Needs all programs; the claim fails for programs that write resources.", "anchors": ["plotline/src/schema/transaction.rs::Transaction for Background::with", "plotline/src/schema/resource.rs"]}
{"id": "C35", "title": "Tuple access is all or nothing", "statement": "with / with_mut on a tuple of 2 to 6 values runs the closure exactly if every member is available, passing each member's value in order; otherwise it returns None and changes nothing.", "quantifier": "every tuple size supported, every availability pattern", "why_tests_cant": "Combinatorial in the members' states.", "anchors": ["plotline/src/deref.rs::impl_with"]}
{"id": "C36", "title": "A lazily loaded document never changes once loaded", "statement": "After the first successful try_deref(), every later try_deref() of that document and of its later clones returns the same content, whatever happens to the repository, and the repository is not consulted again.", "quantifier": "every history of repository contents and calls", "why_tests_cant": "Universal over histories.", "anchors": ["plotline/src/document/lazy.rs::TryDeref for LazyDocument::try_deref", "plotline/src/document/lazy.rs::Clone for LazyDocument"]}
{"id": "C37", "title": "A missing document is retried", "statement": "While no try_deref() has succeeded, try_deref() returns what the repository currently holds under the id; failures are not remembered.", "quantifier": "every history", "why_tests_cant": "Universal over histories.", "anchors": ["plotline/src/document/lazy.rs::TryDeref for LazyDocument::try_deref"]}
{"id": "C38", "title": "Lazy loading is safe under concurrency", "statement": "With any number of threads calling try_deref() on one LazyDocument, all threads that get a document get the same one and the cached document never changes; a thread never gets None if the repository found the document for it.", "quantifier": "every interleaving of the atomic steps of any number of threads, every sequence of repository answers", "why_tests_cant": "Races: universal over schedules.", "anchors": ["plotline/src/document/lazy.rs::TryDeref for LazyDocument::try_deref"]}
{"id": "C39", "title": "A document built from content never reads the repository", "statement": "LazyDocument::new(repo, doc) reports doc.id() as id and always dereferences to doc, without consulting the repository.", "quantifier": "every document and repository history", "why_tests_cant": "Universal over histories.", "anchors": ["plotline/src/document/lazy.rs::LazyDocument::new"]}
{"id": "C40", "title": "A lazy document keeps the id it was listed under", "statement": "A LazyDocument's id() never changes, and the loaded document has that same id.", "quantifier": "every repository and id", "why_tests_cant": "Universal over ids/paths.", "anchors": ["plotline/src/document/lazy.rs::Identify for LazyDocument", "plotline-cli/src/repository.rs::find_by_id"]}
{"id": "C41", "title": "Interval intersection is geometric overlap", "statement": "For intervals with lo <= hi, a.intersects(b) holds exactly if some bound lies in both; it is symmetric and reflexive.", "quantifier": "every lawful bound type and all intervals", "why_tests_cant": "Universal over bounds.", "anchors": ["plugins/interval/src/lib.rs::IntervalExt::intersects", "plugins/interval/src/lib.rs::IntervalExt::contains"]}
{"id": "C42", "title": "Interval tree membership query is exact under inserts", "statement": "After any sequence of insertions of proper intervals, tree.intersects(q) is true exactly if some inserted interval intersects q.", "quantifier": "every insertion sequence and query", "why_tests_cant": "Pruning by subtree maxima must be right for every tree shape.", "anchors": ["plugins/interval/src/tree.rs::IntervalSearchTree::intersects", "plugins/interval/src/node.rs::IntervalSearchTreeNode::intersects", "plugins/interval/src/node.rs::insert"]}
{"id": "C43", "title": "Interval enumeration reports every intersecting interval exactly once", "statement": "After any history of insertions and completed deletions of proper intervals, for_each_intersection(q, f) calls f exactly on the stored intervals that intersect q, each as many times as it is stored, in non-increasing order of lo.", "quantifier": "every history and query", "why_tests_cant": "Universal over histories and tree shapes.", "anchors": ["plugins/interval/src/tree.rs::for_each_intersection", "plugins/interval/src/node.rs::for_each_intersection"]}
{"id": "C44", "title": "Interval tree membership query is exact after deletions", "statement": "After any history of insertions and completed deletions, tree.intersects(q) is true exactly if some stored interval intersects q.", "quantifier": "every history and query", "why_tests_cant": "Universal over histories.", "anchors": ["plugins/interval/src/node.rs::delete", "plugins/interval/src/node.rs::intersects"]}
{"id": "C45", "title": "Interval deletion terminates", "statement": "tree.delete(i) returns for every tree and interval.", "quantifier": "every tree and interval", "why_tests_cant": "Termination is a claim about all inputs.", "anchors": ["plugins/interval/src/node.rs::delete", "plugins/interval/src/node.rs::join"]}
{"id": "C46", "title": "Interval deletion removes exactly one stored copy of the interval", "statement": "When delete(i) returns, the stored intervals are the previous ones minus one copy of i if i was stored, and unchanged otherwise.", "quantifier": "every tree and interval", "why_tests_cant": "Universal over trees, including equal lower bounds.", "anchors": ["plugins/interval/src/node.rs::delete"]}
{"id": "C47", "title": "Interval tree shape invariants", "statement": "After any history of insertions and completed deletions the in-order sequence of the tree is sorted by lo and every node's max bounds all the hi of its subtree; the number of stored intervals is insertions minus effective deletions.", "quantifier": "every history", "why_tests_cant": "Universal over histories.", "anchors": ["plugins/interval/src/node.rs::insert", "plugins/interval/src/node.rs::delete", "plugins/interval/src/node.rs::count"]}
{"id": "C48", "title": "Rotations preserve contents and maxima", "statement": "rotate_left and rotate_right preserve the in-order sequence of intervals, and every node's max in the result is the true maximum when it was before.", "quantifier": "every tree", "why_tests_cant": "Universal over trees.", "anchors": ["plugins/interval/src/node.rs::rotate_left", "plugins/interval/src/node.rs::rotate_right"]}
{"id": "C49", "title": "Dates are totally ordered", "statement": "Date::cmp is a total order consistent with Eq for both encodings and any number of components: reflexive, antisymmetric, transitive, and Equal exactly on equal dates.", "quantifier": "every component count N, lawful component order, all dates", "why_tests_cant": "Universal over N and components.", "anchors": ["plugins/interval/src/date.rs::Ord for Date"]}
{"id": "C50", "title": "Date order is lexicographic from the most significant component", "statement": "Big-endian dates compare by the first differing component; little-endian dates compare by the last differing component; reversing the components of one encoding gives the order of the other.", "quantifier": "every N, all dates", "why_tests_cant": "Universal over N.", "anchors": ["plugins/interval/src/date.rs::Ord for Date"]}
{"id": "C51", "title": "The interval plugin's index mirrors the graph", "statement": "After installing IntervalPlugin and any history of Save/Delete, the search tree resource the plugin uses holds exactly the intervals of the nodes in the graph.", "quantifier": "every history of saves and deletes", "why_tests_cant": "Universal over histories.", "anchors": ["plugins/interval/src/plugin.rs::install", "plugins/interval/src/plugin.rs::on_save", "plugins/interval/src/plugin.rs::on_delete"]}
{"id": "C52", "title": "CLI list prints every document once, in order", "statement": "plot doc list prints the id of every document under the context exactly once, in ascending path order, independent of the directory walk order.", "quantifier": "every directory content and walk order", "why_tests_cant": "Universal over file systems and walk orders.", "anchors": ["plotline-cli/src/document.rs::DocumentCli::execute", "plotline-cli/src/repository.rs::all", "plotline-cli/src/main.rs::main"]}
{"id": "C53", "title": "CLI changes are durable", "statement": "After plot doc ID save CONTENT succeeds, a later plot doc list shows ID; after plot doc ID delete succeeds, it does not.", "quantifier": "every file system, id, content", "why_tests_cant": "Universal over file systems; spans processes.", "anchors": ["plotline-cli/src/document.rs::DocumentCli::execute", "plotline-cli/src/main.rs::main"]}
{"id": "C54", "title": "CLI ids lead back to the file", "statement": "For every file listed under an id, loading that id reads that very file.", "quantifier": "every file name with the configured extension, in any directory", "why_tests_cant": "Universal over file names (dots, leading dots, ...).", "anchors": ["plotline-cli/src/repository.rs::find_by_id", "plotline-cli/src/repository.rs::all"]}
{"id": "C55", "title": "CLI ids are unique per file", "statement": "Two different files with the configured extension are listed under different ids.", "quantifier": "every pair of file paths", "why_tests_cant": "Universal over file names.", "anchors": ["plotline-cli/src/repository.rs::all"]}
{"id": "C56", "title": "CLI commands that need an id fail cleanly without one", "statement": "save and delete without an id return an error and change neither graph nor file system.", "quantifier": "every state", "why_tests_cant": "Universal over states.", "anchors": ["plotline-cli/src/document.rs::DocumentCli::execute"]}
{"id": "C57", "title": "Rotations preserve the search order", "statement": "rotate_left and rotate_right keep the tree a search tree: at every node, left subtree strictly before the node by lo, right subtree not before it.", "quantifier": "every tree", "why_tests_cant": "Universal over trees; fails only with equal lower bounds at the pivot.", "anchors": ["plugins/interval/src/node.rs::rotate_left", "plugins/interval/src/node.rs::rotate_right"]}
{"id": "C58", "title": "Dates are points as intervals", "statement": "Every date is a proper interval (lo <= hi), and two dates intersect exactly if they are equal, for both encodings.", "quantifier": "every component count N, lawful component order, all dates", "why_tests_cant": "Universal over N and components.", "anchors": ["plugins/interval/src/date.rs::Interval for Date", "plugins/interval/src/lib.rs::IntervalExt::intersects"]}
{"id": "C59", "title": "CLI save and delete act on exactly the given id", "statement": "In a run of the tool, save with an id succeeds and leaves the schema holding under that id a document with that id and the given content, everything else unchanged; delete with an id succeeds and removes exactly it if it is listed, and otherwise reports that there is nothing to do and changes nothing.", "quantifier": "every file system, walk order, id and content, and every extension that makes a pattern (C72)", "why_tests_cant": "Universal over the documents already there.", "anchors": ["plotline-cli/src/document.rs::DocumentCli::execute", "plotline-cli/src/main.rs::main"]}
{"id": "C60", "title": "Clients of one schema do not deadlock, unless a closure asks for a lock its own transaction holds", "statement": "In every state any interleaving of clients can reach, a client holding a guard or an open transaction can go on, and one that cannot go on waits for one that can; except when a transaction's closure or trigger asks for a lock it holds itself: the schema's (read, write, another transaction), which stops all clients for good, or that of a resource it is inside with or with_mut of.", "quantifier": "every interleaving of any number of clients", "why_tests_cant": "Universal over schedules; deadlocks need particular ones.", "anchors": ["plotline/src/schema/mod.rs::Schema::transaction", "plotline/src/schema/mod.rs::Schema::read", "plotline/src/schema/mod.rs::Schema::write", "plotline/src/schema/transaction.rs::Background", "plotline/src/schema/guard.rs"]}
{"id": "C61", "title": "Trigger cascades end when the triggers are layered; a trigger doing what it is scheduled on never ends", "statement": "If operations can be ranked so that every trigger only performs operations of lower rank than the one it is scheduled on, every operation ends. A trigger scheduled before (or after) saves which itself gets to a save, whatever it finds (at once or later, in subtransactions or through other triggers), makes every transaction that gets to a save, at any place, run forever, unless a trigger before it fails; and likewise for deletions of nodes that are there: one scheduled before deletions which, whenever its target is there, gets to deleting a node that is there (its target, say) makes every transaction that gets to such a deletion, at any place, run forever, unless a trigger before it fails or removes the node.", "quantifier": "every environment, trigger list, graph and operation", "why_tests_cant": "Termination is a statement about all executions; a hanging test only times out.", "anchors": ["plotline/src/schema/ops/save.rs", "plotline/src/schema/ops/delete.rs", "plotline/src/schema/trigger.rs::Trigger", "plotline/src/schema/mod.rs::Schema::trigger"]}
{"id": "C62", "title": "API calls inside with and with_mut of a resource: the lock is held exactly while the closure runs", "statement": "At every moment of a transaction the resources in use are exactly those whose with or with_mut is on the call stack, however closures end. Inside with_mut any other access to that resource waits for ever, inside with any write does, reads do not; so saving inside with_mut while an AfterSave trigger reads the resource never returns. Transactions that never ask for a lock they hold never wait for themselves. What with shows does not change until its closure ends; inside with_mut only the closure's own assignments change the resource. A panic inside with_mut makes the resource unavailable; one inside with does not.", "quantifier": "every schema, trigger, closure, nesting of scopes and way of ending", "why_tests_cant": "Which accesses wait depends on the whole call stack, through operations and their triggers; a test that waits never fails.", "anchors": ["plotline/src/deref.rs", "plotline/src/schema/resource.rs::Res", "plotline/src/schema/transaction.rs::Context", "plotline/src/schema/trigger.rs::Trigger", "plotline/src/schema/ops/save.rs"]}
{"id": "C63", "title": "A transaction depends only on the nodes it looks up", "statement": "Run on two schemas with the same triggers and resources whose graphs agree on every id the transaction (its triggers and subtransactions included) looks up, a transaction that ends returns the same, leaves the same resources and applies the same changes: ids that read the same before read the same after.", "quantifier": "every pair of schemas, closure, trigger and transaction that ends", "why_tests_cant": "Universal over graphs and closures; nodes that are not looked up are never part of a test.", "anchors": ["plotline/src/schema/transaction.rs::Context", "plotline/src/schema/transaction.rs::Background", "plotline/src/graph/mod.rs::Source for Graph::get"]}
{"id": "C64", "title": "A transaction changes only the nodes it writes", "statement": "If an id reads differently after a transaction, then the transaction, a subtransaction or a trigger saved a node with that id or deleted it; and a node found afterwards was there before or was saved by it under its own id.", "quantifier": "every schema, closure, trigger and way of ending", "why_tests_cant": "Universal over graphs and closures.", "anchors": ["plotline/src/schema/transaction.rs::Background::commit", "plotline/src/schema/transaction.rs::Context", "plotline/src/schema/ops/save.rs", "plotline/src/schema/ops/delete.rs"]}
{"id": "C65", "title": "Transactions on different nodes commute", "statement": "If two transactions write to different ids, neither looks up an id the other writes, and neither uses a resource the other asks for with with_mut (or neither changes any), then each returns the same whether it goes first or second, and both orders leave the same nodes (by lookup and by iteration), resources, triggers and poisoning.", "quantifier": "every schema and pair of transactions that end", "why_tests_cant": "Universal over pairs of transactions.", "anchors": ["plotline/src/schema/transaction.rs::Background", "plotline/src/schema/transaction.rs::Context", "plotline/src/schema/mod.rs::Schema::transaction"]}
{"id": "C66", "title": "Lookups and iteration determine each other", "statement": "Two graphs that answer every lookup alike are iterated alike, and the other way round, whatever histories they come from; collecting the nodes of a graph in any order gives a graph that answers like it.", "quantifier": "every pair of graphs reachable through the API", "why_tests_cant": "Universal over histories; equal-comparing ids with different representations matter.", "anchors": ["plotline/src/graph/mod.rs::Source for Graph::get", "plotline/src/graph/mod.rs::IntoIterator for &Graph", "plotline/src/graph/mod.rs::FromIterator for Graph::from_iter"]}
{"id": "C67", "title": "Contexts and subtransactions held side by side read the last write that counts for them", "statement": "Whatever contexts and subtransactions are made, used and ended, in any order in which nothing outlives what it borrows: get through a context returns the last write made through a context of its transaction (a committed subtransaction's writes counting for the one around it when committed), else what the transaction around it reads, else what the graph has; contains agrees; other subtransactions' pending writes are not seen, those not committed leave no trace, and the graph changes only when the whole transaction commits, to what was read in it unless a context of it was forgotten.", "quantifier": "every sequence of calls on any number of contexts and subtransactions, every graph and id", "why_tests_cant": "Universal over interleaved call sequences and nesting depths.", "anchors": ["plotline/src/schema/transaction.rs::Context::transaction", "plotline/src/schema/transaction.rs::From<&Foreground> for Context", "plotline/src/schema/transaction.rs::From<&Background> for Context", "plotline/src/schema/transaction.rs::Transaction for Foreground::commit", "plotline/src/schema/transaction.rs::Transaction for Background::commit", "plotline/src/schema/transaction.rs::Source for Context"]}
{"id": "C68", "title": "Target handles share the target of the context they were taken from", "statement": "Reading a target handle, or a clone of one, gives what was last put in that target through any handle sharing it, with the changes made inside of it since through shared references, and nothing if the context had no target when the handle was taken or after a change panicked; changing it runs on that value or not at all; giving the context another target leaves earlier handles as they are; a new context of the same transaction has no target.", "quantifier": "every sequence of calls on contexts and handles", "why_tests_cant": "Universal over call sequences and sharing patterns.", "anchors": ["plotline/src/schema/transaction.rs::Target", "plotline/src/schema/transaction.rs::Context::with_target", "plotline/src/schema/transaction.rs::Context::target"]}
{"id": "C69", "title": "Calls inside with and with_mut of a target: which ones never return", "statement": "The closure of Target::with or with_mut may make any calls on contexts, transactions and targets. A call never returns exactly if it accesses a target in use by a running closure of with_mut, or accesses one exclusively that is in use at all, through whichever handle; all other calls are unaffected. A panic in a closure of with_mut makes the target unreadable for good, one in a closure of with changes nothing.", "quantifier": "every sequence of calls on contexts, transactions and handles, with closures nested at will", "why_tests_cant": "Universal over call sequences and sharing patterns; tests cannot observe that a call never returns.", "anchors": ["plotline/src/schema/transaction.rs::Target", "plotline/src/deref.rs::With", "plotline/src/deref.rs::WithMut", "plotline/src/schema/ops/save.rs::Save::execute"]}
{"id": "C70", "title": "A transaction depends only on the resources it uses", "statement": "Run on two schemas where every id the transaction looks up and every resource it asks for (its triggers and subtransactions included) read the same, and which have the same triggers for the operations it performs, a transaction that ends returns the same and applies the same changes to the graph; resources that read the same before read the same after. Which other resources and triggers are registered, and in what order resources were, makes no difference.", "quantifier": "every pair of schemas made through the API, closure, trigger and transaction that ends", "why_tests_cant": "Universal over resource values, graphs and closures; resources that are not asked for are never part of a test.", "anchors": ["plotline/src/schema/resource.rs::Res", "plotline/src/schema/resource.rs::ResourceSet", "plotline/src/deref.rs::With", "plotline/src/deref.rs::WithMut", "plotline/src/schema/transaction.rs::Background"]}
{"id": "C71", "title": "A transaction changes only the resources it asks to write", "statement": "If a resource reads differently after a transaction that ended (in whatever way), then the transaction, a subtransaction or a trigger called with_mut on it; handles to a registration replaced since are not affected by any transaction.", "quantifier": "every schema made through the API, closure, trigger, resource type and way of ending", "why_tests_cant": "Universal over closures and resource sets.", "anchors": ["plotline/src/schema/resource.rs::Res", "plotline/src/schema/resource.rs::ResourceSet", "plotline/src/deref.rs::WithMut", "plotline/src/schema/transaction.rs::Background"]}
{"id": "C72", "title": "The extension option is a pattern when listing and literal when loading", "statement": "For every extension whose pattern \\.EXT$ is a regular expression, plot doc list prints in ascending order exactly the visible paths under the context whose file name the expression matches, less their last extension (and the context itself if it matches and has no extension; of a context that ends with no name, as .. and /, all of it is matched). With the context -, taken for the standard input, it prints nothing. Without special characters those are the names ending in .EXT; a dot in EXT stands for any character, a class for any it lists, and a counted repetition for as many as it says; (md|txt) and (?:md|txt) are the names ending in one of the two. Loading takes EXT literally: the id of a file with an extension of two parts leads back to it, with more parts never. An EXT that makes no valid regular expression makes every command panic without printing or changing anything.", "quantifier": "every extension (patterns with nested classes, operations on classes, class escapes or flags aside), file system, context and walk order", "why_tests_cant": "Universal over patterns, file names and file systems.", "anchors": ["plotline-cli/src/repository.rs::all", "plotline-cli/src/repository.rs::find_by_id", "plotline-cli/src/main.rs::main"]}
{"id": "C73", "title": "Loading a document reads only files under the context", "statement": "find_by_id(id) of the command line tool's repository reads no file outside of the context directory, whatever the id.", "quantifier": "every context, extension, file system and id: relative or absolute, with or without .. components, empty", "why_tests_cant": "Universal over ids and file systems; the project has no test of the repository.", "anchors": ["plotline-cli/src/repository.rs::find_by_id"]}
{"id": "C74", "title": "Resources hold what was done to them, in call order, whatever fails around it", "statement": "When a transaction ends, by Ok, Err or a panic, each resource reads as what the calls of with_mut made during it left, one after another in the order they were made, whether the transaction itself, a subtransaction or a trigger made them and whether these failed. Each read, and each closure of with or with_mut, gets what the calls before it left. A resource on which a closure of with_mut panicked cannot be read again, in this transaction or any later one, even if the panic was caught.", "quantifier": "every schema made by the API, every closure program (any nesting of transactions, triggers, with, with_mut, caught panics), every resource type", "why_tests_cant": "Universal over programs and orders of calls; resources are not part of the rollback, which a test of one order does not show.", "anchors": ["plotline/src/schema/resource.rs::Res", "plotline/src/deref.rs::WithMut", "plotline/src/schema/transaction.rs::Background"]}
{"id": "C75", "title": "Ids on the command line are paths, not strings", "statement": "Every argument stands for exactly one path: separators may be repeated or trail, and . does not count except at the start. Arguments that stand for the same path do the same; save changes the node of that path and no other, delete succeeds exactly if that path is listed.", "quantifier": "every argument, file system, extension and order of the walk", "why_tests_cant": "Universal over strings.", "anchors": ["plotline-cli/src/document.rs::DocumentCli::execute", "plotline-cli/src/main.rs::main"]}
{"id": "C76", "title": "Ids that load the same file are the same id", "statement": "If find_by_id answers for two ids with documents of the same path, then the ids are equal.", "quantifier": "every file system, context, extension and pair of ids", "why_tests_cant": "Universal over pairs of ids; with_extension and join forget parts of them.", "anchors": ["plotline-cli/src/repository.rs::find_by_id"]}
{"id": "C77", "title": "Schemas that look the same stay the same, whatever is done with them", "statement": "If two schemas have the same nodes under every id, the same triggers in the same order under every scheduler and resources that read as the same, then every course of registrations, transactions, writes and reads possible on one is possible on the other with the same answers, and they look the same afterwards. So resources of different types, and triggers of different schedulers, can be registered in any order; registering a resource replaces whatever was there, lost or not; a transaction that failed or panicked and left the resources as they were might as well not have been made.", "quantifier": "every pair of schemas made and used through the API, however they came to be; every course of uses and every closure", "why_tests_cant": "Universal over pairs of histories and over everything done afterwards.", "anchors": ["plotline/src/schema/mod.rs::Schema::with_resource", "plotline/src/schema/mod.rs::Schema::with_trigger", "plotline/src/schema/resource.rs::ResourceSet", "plotline/src/schema/trigger.rs::TriggerSet", "plotline/src/schema/transaction.rs::Background"]}
{"id": "C78", "title": "Whoever reads the graph, by whatever guard or context, reads what was put there last", "statement": "In every program that makes, keeps, drops or forgets guards of the graph (schema.read(), schema.write()) and transactions with their contexts and subtransactions in any order the borrow checker lets pass: get and contains through a guard, the nodes an iterator over one yields (all of them, ascending in id), and what insert, remove and std::mem::replace through a write guard give back, are what the last change of each id left, whether made through a write guard or by a committed transaction that had no context forgotten, together with what was changed inside of nodes since through the shared references an iterator yields; get and contains through a context are the last write that counts for its transaction, else for the one around it, and so on, else the same.", "quantifier": "every sequence of calls of one thread, every graph, every node type with a lawful id order", "why_tests_cant": "Universal over programs mixing guards and transactions; which writes count depends on what was ended, unwound or forgotten.", "anchors": ["plotline/src/schema/guard.rs", "plotline/src/schema/mod.rs::Schema::read", "plotline/src/schema/mod.rs::Schema::write", "plotline/src/schema/mod.rs::Schema::transaction", "plotline/src/schema/transaction.rs::Context"]}
{"id": "C79", "title": "Which calls of a program never return", "statement": "In every such program a call never returns exactly if it waits for a lock held by a value that was made and not dropped, forgotten ones included: write() and the first context of a transaction wait for any guard and any transaction with a context, read() for any write guard and any such transaction, an access to a resource or target for an access to the same one if one of the two can write. After std::mem::forget of a guard no write() returns and no transaction gets a context; after that of a transaction with a context nothing gets at the graph. Which calls compile is decided by what was made and ended before.", "quantifier": "every sequence of calls of one thread", "why_tests_cant": "Universal over programs; a hang shows in the one sequence that has it.", "anchors": ["plotline/src/schema/guard.rs", "plotline/src/schema/transaction.rs::From<&Background> for Context", "plotline/src/schema/resource.rs::ReadOnly for Res::read", "plotline/src/schema/resource.rs::ReadWrite for Res::write"]}
{"id": "C80", "title": "Resource guards kept as values show what the resource holds, apart from the graph", "statement": "Through a guard of a resource (Res::read, Res::write), kept for however long, there is what the registration its handle was taken from holds: the value registered, as assigned since through any guard; nothing if no resource of the type was registered, or a write guard was dropped by a panic. An assignment succeeds exactly if there is such a value. Calls on resources and calls on the graph, made the other way round, return the same and lead to the same state.", "quantifier": "every sequence of calls of one thread, every set of resource types", "why_tests_cant": "Universal over orders in which guards are taken and given up.", "anchors": ["plotline/src/schema/resource.rs", "plotline/src/deref.rs", "plotline/src/schema/mod.rs::Schema::with_resource"]}
{"id": "C81", "title": "A closure does what its calls do, made one by one", "statement": "On a schema with any triggers and resources and no lock held, transaction().with(closure) gives the outcome (value, error, panic, or never returning) that is had by making, one after the other on values kept in variables, the calls the closure and the triggers run from it make: opening the transaction and its subtransactions, get, save, delete, contains, accesses to targets and resources, dropping or forgetting contexts, committing or giving up. If it returns or panics, all these calls return, the graph and the resources are the same afterwards and no lock is held; each get is answered with the last write in force for its context. If it never returns, the last call made waits for a lock held by the closure itself.", "quantifier": "every closure and trigger made of those calls that passes the borrow checker, every sequence of calls before", "why_tests_cant": "Universal over closures and triggers; relates two ways of using the API.", "anchors": ["plotline/src/schema/transaction.rs::Background::with", "plotline/src/schema/transaction.rs::Subtransaction::with", "plotline/src/schema/trigger.rs", "plotline/src/schema/mod.rs::Schema::transaction"]}
{"id": "C82", "title": "A proxy gives the node of its id, the one there at the first look", "statement": "Whatever proxies are made, cloned, looked at and assigned to, over sources that change meanwhile: the first try_deref of a proxy answers what its source then says about its id, all later ones and those of clones made afterwards answer the same; id() is the id assigned last and is_virtual() tells about that id in the source as it is now; successors() gives a fresh proxy over the same source for every edge of the node, in order. Over a graph the node given has the id of the proxy.", "quantifier": "every sequence of calls on any number of proxies and sources, every answer of the sources", "why_tests_cant": "Universal over call sequences; the cached answer and the public fields can disagree only in particular ones.", "anchors": ["plotline/src/graph/proxy.rs::NodeProxy", "plotline/src/graph/proxy.rs::TryDeref for NodeProxy::try_deref", "plotline/src/graph/proxy.rs::Clone for NodeProxy::clone", "plotline/src/graph/proxy.rs::NodeProxy::is_virtual", "plotline/src/graph/proxy.rs::NodeProxy::successors"]}
{"id": "C83", "title": "Threads sharing a proxy all get the same answer, which is asked for once", "statement": "However the threads calling try_deref of one proxy interleave and whatever the source answers: all calls that return, return the same; the source answers at most once, and not if the proxy was looked at before; over a graph they return the node of the graph. A thread waits only for another that is asking the source; while none is, a call is done in a few steps. A call panics only if the source panics when this call asks it; the next call then asks again.", "quantifier": "every schedule of any number of threads, every answer or panic of the source", "why_tests_cant": "Universal over schedules.", "anchors": ["plotline/src/graph/proxy.rs::TryDeref for NodeProxy::try_deref"]}
{"id": "C84", "title": "The text of a listing tells the ids, and gives them back", "statement": "plot doc list prints one line per document, in the order of the listing, whatever characters the names have: a string literal standing for the id, without control characters. No two listings print the same text unless they list the same ids. The string a line stands for, taken for the id of a command, is that id; it is the line itself without the quotes if there is no backslash in it. The other commands print nothing.", "quantifier": "every file system, context, extension, walk order, and table of printable characters", "why_tests_cant": "Universal over names, including those with quotes, ends of lines, backslashes and characters that are escaped.", "anchors": ["plotline-cli/src/document.rs::DocumentCli::execute", "plotline-cli/src/repository.rs::all"]}
{"id": "C85", "title": "Components that keep to themselves do not show", "statement": "Let some components of a program have resource types of their own, which the rest of it does not use, and triggers that read the context and the target, read and write those resources with closures that do not panic, and return Ok. Wherever such components register their resources and triggers, work on the resources, look at the graph or run such closures as transactions, the rest of the program gets the same answers as without them: every use ends in the same way, or does not end, and the nodes and the other resources are the same. What they do always comes to an end. The interval plugin, for a node type other than its id type, is such a component.", "quantifier": "every schema in use, every course of uses of the rest, every set of own types, every such component, and every place of its uses", "why_tests_cant": "Universal over two courses at once, over arbitrary programs and triggers, and over where the component's triggers stand among the others.", "anchors": ["plotline/src/schema/trigger.rs::TriggerSet::with_trigger", "plotline/src/schema/trigger.rs::TriggerSelect::execute", "plotline/src/schema/resource.rs::ResourceSet::with_resource", "plotline/src/schema/transaction.rs::Background::with", "plotline/src/schema/mod.rs::Schema::with_trigger", "plugins/interval/src/plugin.rs::IntervalPlugin::install", "plugins/interval/src/plugin.rs::on_save", "plugins/interval/src/plugin.rs::on_delete"]}
{"id": "C86", "title": "The interval tree answers what comparing one by one does, also for inverted intervals", "statement": "After any insertions, query by query, for_each_intersection reports exactly the stored intervals i with i.intersects(query), each as often as it was inserted, and intersects answers whether there is one, also if some of the intervals or the query end before they begin.", "quantifier": "every sequence of insertions, every query, proper or inverted, over every totally ordered bound", "why_tests_cant": "Universal over trees; which intervals are missed depends on what else is stored.", "anchors": ["plugins/interval/src/node.rs::IntervalSearchTreeNode::intersects", "plugins/interval/src/node.rs::IntervalSearchTreeNode::for_each_intersection", "plugins/interval/src/lib.rs::IntervalExt::intersects"]}
{"id": "C87", "title": "The command line is read as the usage has it", "statement": "The tool runs exactly the command lines of the form [OPTIONS] doc [OPTIONS] [ID] [OPTIONS] delete|list|ls|save [OPTIONS] [CONTENT], content for save only, each option at most once per command, written -Cx, -C=x, -C x, --context=x or --context x; of an option given to several commands the innermost counts. No line can be read in two ways; every other line is only complained about. What is run is what the line says: save stores under the path the id stands for, and no other, the content in UTF-8, in a graph of what the options say; delete succeeds exactly if that path is listed there. Every content can be given, after --.", "quantifier": "every list of words, file system, working directory and walk order", "why_tests_cant": "Universal over command lines; the project has no test of them.", "anchors": ["plotline-cli/src/main.rs::Cli", "plotline-cli/src/main.rs::main", "plotline-cli/src/lib.rs::CliCommand", "plotline-cli/src/document.rs::DocumentCommand", "plotline-cli/src/document.rs::DocumentSubCommand", "plotline-cli/src/document.rs::DocumentSaveArgs"]}
{"id": "C88", "title": "Every listed document can be named on the command line", "statement": "For every document plot doc list prints there are command lines that save and delete the node of that id.", "quantifier": "every file system, working directory, walk order and listed id", "why_tests_cant": "Universal over file names; those that look like options or actions are never in a test.", "anchors": ["plotline-cli/src/document.rs::DocumentCommand", "plotline-cli/src/document.rs::DocumentSubCommand", "plotline-cli/src/main.rs::main"]}
{"id": "C89", "title": "A subtransaction is a transaction on what its context shows; closures one by one or together", "statement": "In every state of a transaction and on every context, ctx.transaction().with(closure) does what schema.transaction().with(closure) does on a schema with the nodes the context reads and the same triggers and resources: it ends in the same way or does not end either, the resources are the same afterwards, and the context then reads what that schema holds. So closures (Save and Delete operations among them) run one after the other as subtransactions of one transaction, up to the first error, end like the same run as transactions of their own; if all succeed the graph is the same, otherwise it is left as it was.", "quantifier": "every closure that can be passed to schema.transaction().with, every reachable state, context and number of closures, all triggers and resources", "why_tests_cant": "Relates all closures run at two nesting depths in all states; a test runs one closure in one state.", "anchors": ["plotline/src/schema/transaction.rs::Transaction for Foreground::with", "plotline/src/schema/transaction.rs::Transaction for Background::with", "plotline/src/schema/transaction.rs::Context", "plotline/src/schema/ops/save.rs::Save::execute", "plotline/src/schema/ops/delete.rs::Delete::execute"]}
{"id": "C90", "title": "The exit status and what is printed tell how a command ended", "statement": "A process of plot that gets past its command line ends in exactly one way. A delete ends with status 0 and no output if the id is among the documents, and otherwise with status 1 and 'Error: nothing to apply'; a save with an id ends with status 0; save or delete without an id end with status 1 and 'Error: node id must be set'; an extension that makes no pattern ends every command with a panic, status 101. A list writes one line per document, in order, to a standard output that takes them all and ends with status 0; if the output takes only the first n lines and there are more, exactly those are written and it panics with status 101. So status 1 always comes with a message, and nothing but list writes to the standard output.", "quantifier": "every grammatical command line, working directory, file system, walk order, extension and number of lines the output takes", "why_tests_cant": "Universal over command lines, directory contents and the point at which the reader of a pipe goes away.", "anchors": ["plotline-cli/src/main.rs::main", "plotline-cli/src/document.rs::DocumentCli::execute", "plotline-cli/src/repository.rs::LocalDocumentRepository::all", "plotline/src/schema/error.rs::Error"]}
{"id": "C91", "title": "A panic in user code leaves the interval tree as it was", "statement": "If lo or hi of an interval, the comparison of bounds, == of intervals or the closure panics during insert, delete, intersects or for_each_intersection, and the panic is caught, the tree holds the same intervals afterwards as before the call.", "quantifier": "every tree, every call, every point at which user code panics, and every sequence of such calls", "why_tests_cant": "Universal over the points at which any call of user code may panic; tests use intervals that never do.", "anchors": ["plugins/interval/src/tree.rs::IntervalSearchTree::insert", "plugins/interval/src/tree.rs::IntervalSearchTree::delete", "plugins/interval/src/tree.rs::IntervalSearchTree::intersects", "plugins/interval/src/tree.rs::IntervalSearchTree::for_each_intersection", "plugins/interval/src/node.rs::IntervalSearchTreeNode"]}
{"id": "C92", "title": "Calls on the interval tree take logarithmic work", "statement": "insert, delete and intersects call user code (lo, hi, comparisons, ==) at most a constant times the logarithm of the number of stored intervals many times, and for_each_intersection at most that and a constant for each interval reported.", "quantifier": "every tree and every call", "why_tests_cant": "Universal over trees and intervals; tests do not count calls and use a handful of intervals.", "anchors": ["plugins/interval/src/tree.rs::IntervalSearchTree::insert", "plugins/interval/src/tree.rs::IntervalSearchTree::delete", "plugins/interval/src/tree.rs::IntervalSearchTree::intersects", "plugins/interval/src/tree.rs::IntervalSearchTree::for_each_intersection", "plugins/interval/src/node.rs::IntervalSearchTreeNode"]}
{"id": "C93", "title": "Programs cannot break the invariants of components", "statement": "Let a component have resource types of its own and an invariant of what can be read of these, and let its triggers, in groups registered right after one another, restore the invariant whenever they run and do not hang. Then the invariant holds after every course of uses that leaves those types alone: after transactions that commit, fail or panic, with whatever subtransactions, caught panics and triggers of others in them. So, for a node type that is its own id type, the index of the interval plugin is at all times exactly what the intervals of the nodes saved and deleted so far, in that order and in failed transactions too, make of the empty tree.", "quantifier": "every schema in use, component, invariant and course of uses that leaves its types alone", "why_tests_cant": "Universal over programs, over nesting, failures and panics, and over components.", "anchors": ["plotline/src/schema/trigger.rs::TriggerSet::with_trigger", "plotline/src/schema/trigger.rs::TriggerSelect::execute", "plotline/src/schema/resource.rs::ResourceSet::with_resource", "plotline/src/schema/transaction.rs::Background::with", "plugins/interval/src/plugin.rs::IntervalPlugin::install", "plugins/interval/src/plugin.rs::on_save", "plugins/interval/src/plugin.rs::on_delete"]}
{"id": "C94", "title": "The interval plugin can hang a program and do nothing else to it", "statement": "For a node type that is its own id type, where the plugin's index exists: a program that does not use the plugin's resources and comes to the end of some course of uses with the plugin installed goes the same course without it, with the same answers, and is left with the same nodes and resources. Conversely, what a program does without the plugin it does with it in the same way, unless one of its transactions hangs.", "quantifier": "every schema in use, every extractor, every course of uses that leaves the plugin's types alone", "why_tests_cant": "Universal over two courses at once and over programs.", "anchors": ["plugins/interval/src/plugin.rs::IntervalPlugin::install", "plugins/interval/src/plugin.rs::on_save", "plugins/interval/src/plugin.rs::on_delete", "plotline/src/schema/trigger.rs::TriggerSelect::execute", "plotline/src/schema/transaction.rs::Background::with"]}
{"id": "C95", "title": "Contexts that lead to the same directory are the same", "statement": "Two ways of writing the context that lead to the same directory, absolute or relative, with .. or through symbolic links, list the same ids, and loading an id gives the same content with both or nothing with both.", "quantifier": "every file system with links, every pair of contexts, extension, id and walk order", "why_tests_cant": "Universal over file systems and ways of writing paths; needs links in a test.", "anchors": ["plotline-cli/src/repository.rs::find_by_id", "plotline-cli/src/repository.rs::all"]}
{"id": "C96", "title": "The listed documents are those that can be loaded", "statement": "An id of a name without further dots is listed by plot doc list exactly if find_by_id gives a document for it.", "quantifier": "every file system: files, directories, symbolic links, unreadable files; every context, extension and walk order", "why_tests_cant": "Universal over file systems.", "anchors": ["plotline-cli/src/repository.rs::find_by_id", "plotline-cli/src/repository.rs::all"]}
{"id": "C97", "title": "Components that keep to themselves can be set up and used in any order", "statement": "Let several components of a program have resource types of their own, and triggers that read the context and the target, read and write those resources with closures that do not panic, and return Ok. In any course of uses of a schema, neighbouring uses by different components (registering resources and triggers, working on their resources, transactions of such closures) can change places, again and again: every use of the course, by the rest of the program and by the components, gives the same answer, and in the end the graph and all resources are the same. In particular plugins can be installed in any order.", "quantifier": "every schema in use, every number of components, every course of uses and every such reordering", "why_tests_cant": "Universal over pairs of courses and over programs.", "anchors": ["plotline/src/schema/mod.rs::Schema::with_resource", "plotline/src/schema/mod.rs::Schema::with_trigger", "plotline/src/schema/mod.rs::Schema::install", "plotline/src/schema/trigger.rs::TriggerSet::with_trigger", "plotline/src/schema/trigger.rs::TriggerSelect::execute", "plotline/src/schema/resource.rs::ResourceSet::with_resource", "plotline/src/schema/transaction.rs::Background::with"]}
{"id": "C98", "title": "A transaction that would end alone ends among any other clients, with nothing else happening in between", "statement": "Once a client has called with on its transaction, whatever the schedule, nobody but that client takes a step until the call has returned or unwound; if the transaction ends when nobody else uses the schema, that is after fewer steps than a number known when it starts. With layered triggers this is so for every transaction, so in a schedule that goes on for ever every call of with is over at some time. A transaction that would not end alone keeps every other client waiting for ever.", "quantifier": "every schema, closure, number of clients and schedule, finite or infinite", "why_tests_cant": "Liveness under every schedule; a test sees one schedule for a limited time.", "anchors": ["plotline/src/schema/mod.rs::Schema::transaction", "plotline/src/schema/mod.rs::Schema::read", "plotline/src/schema/mod.rs::Schema::write", "plotline/src/schema/transaction.rs::Background::with", "plotline/src/schema/transaction.rs::Background::commit", "plotline/src/schema/trigger.rs::TriggerSelect::execute"]}
{"id": "C99", "title": "What the log tells about a transaction, and what it leaves out", "statement": "Every transaction that ends has logged one definite list of lines. If the line about contexts still in use is not among them, the transaction had the outcome, the nodes and the resources it would have had if neither the closure nor any trigger had leaked a context: nothing is lost silently. A closure that asks for a registered resource, or for a target that was set, and does not get it causes the line about it, and nothing else does; a Delete causes the line about its node exactly if its context does not see the node, and then returns Noop having done nothing; the line about the poisoned graph comes first, and in exactly the transactions after a panic. On a schema nobody has panicked on, closures and triggers that neither panic nor leak their contexts log nothing but attempts to delete nodes that did not exist.", "quantifier": "every schema made by the API, closures, triggers and sequence of transactions", "why_tests_cant": "The log is only worth reading if no line can be missing and none can be there without its cause; tests capture the log of single calls, if at all.", "anchors": ["plotline/src/schema/transaction.rs::Background::commit", "plotline/src/schema/transaction.rs::Foreground::commit", "plotline/src/schema/transaction.rs::Target", "plotline/src/schema/resource.rs::Res", "plotline/src/schema/guard.rs::SchemaWriteGuard", "plotline/src/schema/ops/delete.rs::Delete::execute"]}
{"id": "C100", "title": "The log of the command line tool accounts for whatever a listing leaves out", "statement": "What a process of the tool logs is determined by its arguments and the walk over its context. Every entry of the walk is accounted for: it is a failure, of which there is a line; or it is not named like a document; or it is listed; or it is the context itself, named like a document, of which there is a line. Besides these lines there is one about the node exactly if a deletion fails because the path is not listed, and no other. So a listing without any line lists everything met that is named like a document. With an extension that makes no pattern nothing is logged, and neither is by a command line that runs nothing. Of any number of concurrent calls for one document there is exactly one line for each that returns nothing; it is 'finding document by id' if the repository found nothing, and 'document not found' exactly if the repository did find the document.", "quantifier": "every command line, context, extension without special characters, file system and walk with any failures; every schedule of calls", "why_tests_cant": "The log is the only way to tell an incomplete listing from a complete one, as both end with status 0; tests have no failing walks, and no races.", "anchors": ["plotline-cli/src/repository.rs::LocalDocumentRepository::all", "plotline-cli/src/repository.rs::LocalDocumentRepository::find_by_id", "plotline-cli/src/main.rs::main", "plotline-cli/src/document.rs::DocumentCli::execute", "plotline/src/document/lazy.rs::LazyDocument::try_deref"]}
{"id": "C101", "title": "User code that panics inside a call of the library harms nothing but that call", "statement": "Clone, PartialEq and Ord of the user's types, and id, which the library calls, may panic at any of their calls. Whatever calls of contexts, targets and transactions were made, in whatever order, and whatever user code panicked in them: no lock of a log is poisoned or held. Each call either does exactly what it does if no user code panics, or panics because the last piece of user code it ran did. A call that panics is one that only reads, and then nothing has changed, or the commit of the schema's transaction. Saving, deleting and committing a subtransaction always succeed. As long as no outermost commit panicked, everything is as if the calls that panicked had not been made. An outermost commit that panics has applied the operations before the one it panicked at, in order, and nothing else.", "quantifier": "every sequence of calls on contexts, targets and transactions, nested in any way; any choice of which calls of user code panic; any shape of the graph's search tree", "why_tests_cant": "Tests use types whose Clone and Ord never panic; which locks are held at the moment of such a panic, and so whether they get poisoned, is not seen in them.", "anchors": ["plotline/src/schema/transaction.rs::Context::get", "plotline/src/schema/transaction.rs::Context::contains", "plotline/src/schema/transaction.rs::Context::save", "plotline/src/schema/transaction.rs::Context::delete", "plotline/src/schema/transaction.rs::Foreground::commit", "plotline/src/schema/transaction.rs::Background::commit"]}
{"id": "C102", "title": "Exactly which user code each call of the library runs, and in which order", "statement": "get compares the id with those of the pending operations, newest first, the context's own before those of the contexts around it, up to the first on that id, and with ids in the graph only if there is none; and it clones the node it returns, once, and no other. contains compares in the same way and clones nothing. Reading a target clones its node, once. The commit of the schema's transaction clones the id of every node saved, in order, and no node; all else it runs are the comparisons of the graph's search. All other calls, saving, deleting and committing a subtransaction among them, run no user code but the closures they are given. If a piece of user code panics, what is run ends with it.", "quantifier": "every sequence of calls on contexts, targets and transactions, nested in any way; any choice of which calls of user code panic; any shape of the graph's search tree", "why_tests_cant": "The number of comparisons and clones is not observable in what tests compare; a second clone or a comparison too many changes no result, but costs, or panics, with another type.", "anchors": ["plotline/src/schema/transaction.rs::Context::get", "plotline/src/schema/transaction.rs::Context::contains", "plotline/src/graph/mod.rs::Graph::insert", "plotline/src/graph/mod.rs::Graph::get", "plotline/src/schema/transaction.rs::Background::commit"]}
{"id": "C103", "title": "A document in a schema is fetched from the repository at most once", "statement": "In a schema of lazy documents, a document is fetched from the repository at most once, for as long as nothing is put under its id, however it is reached. More precisely: get through any guard or context gives the document put under the id last, with the content it was put with or else the one found when it was first loaded in the graph since; loading the document an iterator over a guard yields gives that content without asking the repository, and asks it, for the id the document was put with, if there is none; once that has found something, every such load gives the same, without asking, whatever the repository has by then; loading a target of a transaction asks only if the target has no content. And what is found on loading a document that get returned is not lost to others.", "quantifier": "every program of one thread that makes any calls on guards, transactions and resources and loads documents reached by iteration, by get or as targets, over a repository that changes at any time", "why_tests_cant": "Whether a load is remembered depends on whether the document was reached by reference or as a clone; every load gives the right content, so that no test comparing contents can tell.", "anchors": ["plotline/src/document/lazy.rs::TryDeref for LazyDocument::try_deref", "plotline/src/document/lazy.rs::Clone for LazyDocument", "plotline/src/graph/mod.rs::IntoIterator for &Graph", "plotline/src/graph/mod.rs::Source for Graph::get", "plotline/src/schema/transaction.rs::Context::get"]}
{"id": "C104", "title": "A panic in the interval plugin's user code costs the operation it interrupts and nothing else", "statement": "If user code the interval plugin calls panics (the extractor, the id of a node, its clones, the bounds and comparisons of intervals) the save or delete ends with that panic and stores nothing, and the index stays available and correct: later saves and deletes that succeed are in it.", "quantifier": "every course of uses of a schema with the plugin, with any other triggers and resources, and user code that panics at any of its calls in any of the runs of the plugin's triggers", "why_tests_cant": "Which of the calls in a trigger panics decides whether the index survives; all panics look the same to the caller, and after a loss every operation succeeds as before.", "anchors": ["plugins/interval/src/plugin.rs::on_save", "plugins/interval/src/plugin.rs::on_delete", "plugins/interval/src/tree.rs::IntervalSearchTree::insert", "plugins/interval/src/tree.rs::IntervalSearchTree::delete", "plotline/src/schema/resource.rs::Res::with_mut"]}
{"id": "C105", "title": "Every node is destroyed once, when nothing has it any more, and nothing is left behind", "statement": "Whatever calls of contexts, transactions and targets are made, in whatever order, and whatever destructors of nodes panic: the nodes that were in the graph and those given to the library are, each exactly once, in the graph, in a log that a transaction or context still has, in a target that a context or handle still has, taken out of a target by the user, or destroyed. Once the transaction is over, no context was forgotten and all target handles are dropped, only the graph has nodes: nothing leaks. A commit destroys, one after another, the nodes its operations put out of the graph, and no others; giving a transaction up destroys the nodes saved in it, in order, and no others; dropping a context or a handle, or giving a context another target, destroys the target if it was the last to have it; all other calls destroy nothing. If a context of a transaction was forgotten, what was saved in it is kept for ever. The node of a target is not destroyed while a closure uses it. Destructors run while the schema is locked exactly if the transaction is not over and the call is not the one that gives it up. Destructors do not matter to which calls are possible, but that a handle cannot be used once it was dropped, and calls in which none panics answer as if there were none.", "quantifier": "every sequence of calls on contexts, targets, target handles and transactions, nested in any way, with contexts forgotten at any time; any choice of which destructors panic", "why_tests_cant": "Tests look at what is stored; when and how often the nodes that are not stored any more are destroyed shows only in types with destructors that count.", "anchors": ["plotline/src/schema/transaction.rs::Background", "plotline/src/schema/transaction.rs::Background::commit", "plotline/src/schema/transaction.rs::Foreground::commit", "plotline/src/schema/transaction.rs::Target", "plotline/src/schema/transaction.rs::Context::with_target"]}
{"id": "C106", "title": "Destructors of nodes may use the schema, and may panic", "statement": "Destructors of nodes run when the schema is not locked, so that they can use it. A destructor that panics makes the call that ran it panic, and that is all: in particular a commit in which one panics has either stored everything or nothing.", "quantifier": "every sequence of calls on contexts, targets, target handles and transactions, nested in any way; any choice of which destructors panic, and of which calls are made by unwinding", "why_tests_cant": "The nodes of tests have no destructors.", "anchors": ["plotline/src/schema/transaction.rs::Background::commit", "plotline/src/schema/transaction.rs::Background", "plotline/src/schema/transaction.rs::Context::with_target", "plotline/src/graph/mod.rs::Graph::insert"]}
{"id": "C107", "title": "Closures and triggers can be rewritten by the laws of maps without anyone noticing", "statement": "The code of closures and triggers can be rewritten, anywhere in it and any number of times, by laws like: of several saves and deletes on a context only the last on each id counts, in any order; looking up what was just written finds it; looking up anything else, or reading resources, can be done before writing; `contains` is whether `get` finds something; lookups nobody uses can be left out; a subtransaction that succeeds is its writes made outside, one that fails or panics is nothing but its result; without triggers on them `Save` is `ctx.save` and `Delete` is `ctx.delete` of what `ctx.get` finds. Transactions then have the same outcome - value, error, panic, or waiting for ever - and leave the same nodes and resources, and every answer of a whole program stays the same, even if all of its triggers and closures are rewritten. For closures that only save and delete the laws are complete. Every closure of saves, deletes, lookups, reads, caught panics and transactions of its own can be brought into a form that looks first and writes last.", "quantifier": "every schema in use, every closure and trigger and every rewriting by the laws, at any depth; every program that registers resources and triggers, makes transactions and reads and writes; any lawful order of ids", "why_tests_cant": "Equivalence of programs is about all states and all surrounding programs; tests compare runs on a few.", "anchors": ["plotline/src/schema/transaction.rs::Context::save", "plotline/src/schema/transaction.rs::Context::delete", "plotline/src/schema/transaction.rs::Context::get", "plotline/src/schema/transaction.rs::Foreground::commit", "plotline/src/schema/transaction.rs::Background::commit", "plotline/src/schema/ops/save.rs::Save::execute", "plotline/src/schema/ops/delete.rs::Delete::execute"]}
{"id": "C108", "title": "A trigger's parameters are made before it runs, and what it does with its Ctx it does by whole transactions", "statement": "A function of a `Ctx` and of parameters with `From<&Context>`, scheduled by `with_trigger`, is run with a value for each parameter, made one after another from the left, each where the one before was left, and starts where the last was left. If making one panics or waits for ever, so does the trigger; the others are not made and the function is not called; a save whose first trigger panics so changes no node and no lock, only what making the parameters did to resources stays. `Res` and `Target` as parameters have no effect and cannot fail. Code that has a `Ctx`, resources and the target, and passes closures to `with` that use no other context, is to its context what a program is to a schema: it does to what the context shows exactly what the same code, beginning its transactions on a schema with those nodes, does to that schema - with the same result, resources and target. If it begins no transactions it is blind: what it does is the same whatever nodes there are, and it changes none.", "quantifier": "every function and number of parameters, every code of `From<&Context>`, every state of every transaction, at any depth; every code that has a Ctx; every schema", "why_tests_cant": "Order and interruption of conversions, and independence of what is stored, are about all functions and all states; a test runs one trigger on one graph.", "anchors": ["plotline/src/schema/trigger.rs::impl_trigger", "plotline/src/schema/trigger.rs::ArglessTrigger::execute", "plotline/src/schema/transaction.rs::Ctx::transaction", "plotline/src/schema/transaction.rs::Ctx::from", "plotline/src/schema/transaction.rs::Target::from", "plotline/src/schema/resource.rs::Res::from"]}
{"id": "C109", "title": "What no program can tell apart is the same by the laws", "statement": "Two closures that save, delete, look up, read resources, catch panics and make transactions of the same kind on their context can be rewritten to one another by the laws of C107 exactly if no program can tell them apart: if, wherever a closure of a transaction runs the one, it could run the other, and the transaction would end in the same way and leave the same nodes. To tell apart what can be told apart it is enough to run the closure alone, to run it in a transaction of its own and then write to the context around, and to run it while a resource is being written, on schemas without triggers. What these do not tell apart is not told apart by any sequence of uses of any schema either, with the closure in triggers and transactions.", "quantifier": "all pairs of such closures, every program around them, every schema in use; ids that some node can have, resources of types that have a value", "why_tests_cant": "Universal over programs and over ways to rewrite them.", "anchors": ["plotline/src/schema/transaction.rs::Context", "plotline/src/schema/transaction.rs::Background::with", "plotline/src/schema/transaction.rs::Subtransaction::with", "plotline/src/schema/resource.rs", "plotline/src/schema/mod.rs::Schema::transaction"]}
{"id": "C110", "title": "Threads sharing a schema: as if one by one, and who waits for ever", "statement": "Any number of threads use one schema: guards of the graph, transactions with their contexts and targets, resources and their guards, dropped, unwound or forgotten in any order. The calls that return do so as if one program had made them one after another, so that a guard gives what was put last by any thread, and a guard of a resource what was assigned last. While a thread has the graph for itself nobody else changes it; while it has it at all nothing gets in or out; while it has a resource nobody else changes that. A call waits exactly if the lock it asks for is held, or if those who want to write go first, it wants to read and somebody waits to write; otherwise it returns at once, and so does one that waited. A thread that waits never gets its lock exactly if it is one of some threads each of which waits for a lock held by a value that was forgotten or that belongs to one of them, or, should the lock let those who want to write go first, waits to read behind one of them who waits to write. All others can be served, by nothing more than letting go of what others have. If every thread waits only for a lock that comes, in some order of the locks, after all it has, and nothing was forgotten, nobody waits for ever.", "quantifier": "any number of threads and any schedule of any calls that the borrow checker lets pass; locks that let readers overtake waiting writers and locks that do not", "why_tests_cant": "Schedules are chosen by the system; a deadlock shows, if at all, in a test that hangs.", "anchors": ["plotline/src/schema/mod.rs::Schema::read", "plotline/src/schema/mod.rs::Schema::write", "plotline/src/schema/mod.rs::Schema::transaction", "plotline/src/schema/guard.rs", "plotline/src/schema/resource.rs::ReadOnly for Res", "plotline/src/schema/resource.rs::ReadWrite for Res", "plotline/src/schema/transaction.rs::Background"]}
{"id": "C111", "title": "Help, complaints and the status a shell sees before anything runs", "statement": "Every command line of plot either runs a command, or shows help or the version and ends with status 0, or is complained about and ends with status 2. It runs a command exactly if it is a line of the grammar of C87. It shows help exactly if it asks for it before there is anything to complain about: by -h (and whatever is joined to it), --help, for the tool also -V or --version, after options and arguments that are in order; or by the subcommand help, followed by nothing but names of subcommands from outer to inner; or in a subcommand. An option whose value is a word of its own, or in doc one whose value is missing, is not looked at before a subcommand that follows it, so mistakes in it do not keep the subcommand from showing its help, though they keep it from running. Status 2 is that of these complaints only. Without a working directory every command line, also one asking for help, ends with status 101.", "quantifier": "every list of words, working directory or none, file system, walk order, and number of lines the output takes", "why_tests_cant": "Universal over command lines; tests try a few.", "anchors": ["plotline-cli/src/main.rs::Cli", "plotline-cli/src/main.rs::main", "plotline-cli/src/main.rs::DEFAULT_CONTEXT", "plotline-cli/src/document.rs::DocumentCommand", "plotline-cli/src/document.rs::DocumentSubCommand"]}
{"id": "C112", "title": "The test fixtures", "statement": "With the feature fixtures, an interval mock answers lo and hi with what the function last set for it returns, and panics exactly if none was set; fake nodes and identity mocks likewise with their id, and fake edges lead to what the edges function returns, in that order. Two interval mocks are equal exactly if for each bound neither has a function or both have and the bounds they return are equal, which is an equivalence if that of the bounds is. Comparing interval mocks is a total order, in which one without a function for a bound comes first. Two interval mocks compare as equal exactly if they are equal, as the contract of Ord demands.", "quantifier": "every mock, and whatever its functions return", "why_tests_cant": "Universal over functions; where the compiler puts them is not under a test's control.", "anchors": ["plugins/interval/src/lib.rs::fixtures::IntervalMock", "plugins/interval/src/lib.rs::fixtures::interval_mock", "plotline/src/graph/mod.rs::fixtures::FakeNode", "plotline/src/graph/mod.rs::fixtures::FakeEdge", "plotline/src/graph/mod.rs::fixtures::fake_node", "plotline/src/id.rs::fixtures::IndentifyMock"]}
{"id": "C113", "title": "Resources are destroyed when nothing has them, and handles may outlive the schema", "statement": "Whatever resources are registered, handles (Res) taken, used, dropped and forgotten, and whether and when the schema is dropped: each registered value is destroyed at most once, and it has been exactly if neither the schema has it (another of its type was registered since, or the schema is gone) nor a handle that was not dropped. It is destroyed in the very call by which it loses its last owner, with the value closures left in it, even one that panicked. Until it is dropped a handle shows the value of the registration it was taken from, whatever was registered later and whether or not there still is a schema. Registering destroys the last value of the type unless there is a handle on it. If the destructor panics so does the call to register, and then the schema is lost, with all it had that no handle is on, the new value included; nothing else makes registering panic. A second panic meanwhile ends the process. When the schema is gone and all handles are dropped everything was destroyed; what a forgotten handle is on never is.", "quantifier": "every sequence of registrations, uses of handles and drops; any values and closures; any choice of which destructors panic", "why_tests_cant": "The resources of tests have no destructors, and no test registers a type twice or keeps a handle for longer than the schema.", "anchors": ["plotline/src/schema/resource.rs::ResourceSet::with_resource", "plotline/src/schema/resource.rs::ResourceSet", "plotline/src/schema/resource.rs::Res", "plotline/src/schema/mod.rs::Schema::with_resource"]}
{"id": "C114", "title": "File names and arguments that are not text", "statement": "Names of files and the words of a command line are any bytes. Whatever they are, and for every extension that makes a regular expression: the listing is in ascending order and has exactly the visible paths whose name, with U+FFFD in place of each longest beginning of a character that is none (as in from_utf8_lossy), is matched, without their last extension, and the context itself in the case of C72; what is printed is one line for each, in which bytes that are no text are written by their number, and it can be read in one way only. With a plain extension that has no U+FFFD in it, the tool does with such names just what it does with others, so that what is listed and has one dot in its name can be loaded; with one that has, a document may be listed which does not exist. The command lines that run something are those of C87 in which every extension given, the id and the content are text, while the context may be anything; others are only complained about. So the paths which can be named by some command line are those of C88 whose names are all text, and documents may be listed that cannot be deleted. What is saved are the bytes given. Where all names and words are text, the tool does what it does when they are taken for sequences of characters.", "quantifier": "every file system with names of any bytes, every walk of it, context, extension and command line", "why_tests_cant": "Tests of the tool name no files, and file names in tests are text.", "anchors": ["plotline-cli/src/repository.rs::all", "plotline-cli/src/repository.rs::find_by_id", "plotline-cli/src/document.rs::DocumentCli::execute", "plotline-cli/src/document.rs::DocumentCommand", "plotline-cli/src/main.rs::Cli", "plotline-cli/src/main.rs::main"]}
{"id": "C115", "title": "Directories that may not be listed or searched", "statement": "Whatever permissions directories have, if the tool is started in a directory it may search, as are those above it: what an id loads is the content of the file its path leads to, where whoever goes on from a directory, be it to its parent, may search it; so with permissions an id loads what it loads without them or nothing, and just that where every directory may be searched. The listing has exactly the paths the walk gets to see whose name the pattern matches, without their last extension, and the context itself in the case of C72: it lists every directory on the way, and searches those that it goes on from into the next. What is listed under an id without further dots can be loaded exactly if all directories it is in, from the context on, may be searched and it can be read; and what can be loaded is listed exactly if it is as C96 has it and all these directories may be listed. The log has one line for each place where the walk fails: a context that is not found, and each directory it gets to that may not be listed or is in one that may not be searched. If there is no such line then everything is listed that would be if there were no permissions.", "quantifier": "every file system with directories that may each be listed and searched or not, every walk of it, context, extension and id", "why_tests_cant": "Tests run as one user, often root, in directories that are all open to it.", "anchors": ["plotline-cli/src/repository.rs::all", "plotline-cli/src/repository.rs::find_by_id", "plotline-cli/src/main.rs::main"]}
{"id": "C116", "title": "Resources that own handles are destroyed with their owners, unless in a circle", "statement": "Whatever resources are registered, handles (Res) taken, moved into the values of resources before or after these are registered, moved out, dropped or forgotten, and whether and when the schema is dropped: each registered value is destroyed at most once, and it has been exactly if neither the schema has it nor the program has or forgot a handle on it, and all values with a handle on it were destroyed. So what is kept is what can be reached through values from the schema, from a handle of the program or a forgotten one, or from values that have handles on each other, or themselves, in a circle. A value is destroyed before those it has handles on. When the schema is gone and the program has no handles, everything was destroyed but what can be reached from a forgotten handle or such a circle, and that stays so for ever; circles need with_mut, registering values with handles alone makes none. with_mut on a value no closure panicked with moves handles in and out; after a panic it does neither, and a handle it was to move in is dropped. A call by which values are destroyed ends normally, with a panic or by ending the process if none, one or more of their destructors panic.", "quantifier": "every sequence of registrations, moves of handles and drops, chains and circles of any length; any choice of which destructors panic", "why_tests_cant": "Memory that is never freed fails no test, the resources of tests own nothing, and which chains and circles of handles a program builds is up to its plugins.", "anchors": ["plotline/src/schema/resource.rs::ResourceSet::with_resource", "plotline/src/schema/resource.rs::ResourceSet", "plotline/src/schema/resource.rs::Res", "plotline/src/deref.rs::WithMut", "plotline/src/schema/mod.rs::Schema::with_resource"]}
{"id": "C117", "title": "A panic in with_mut disables the resource, unless the thread was panicking already", "statement": "Whatever closures, destructors and catch_unwind a thread runs, in any nesting: a resource or target is disabled exactly if it was before or a closure given it by with_mut was left by a panic, in a call made while the thread was not panicking. What is done while it is, that is by destructors that are run by unwinding, disables nothing; if such a destructor catches a panic that leaves a closure of with_mut, the value stays in use as that closure left it. A panic such a destructor does not catch ends the process, and nothing catches that. A call on what a closure around it has been given, if one of the two is by with_mut, never returns; other programs come to an end. Closures are called exactly if the resource is there and not disabled. In a program whose values have no destructors, any panic that leaves a closure of with_mut disables what it was given; no panic ends the process then, nor if all destructors catch theirs. What no closure is given by with_mut is neither changed nor disabled.", "quantifier": "every program of nested accesses, panics, catch_unwind and values with destructors; any number of resources, any values", "why_tests_cant": "No test has a destructor that uses a resource, or one that runs while the thread unwinds.", "anchors": ["plotline/src/schema/resource.rs::Res", "plotline/src/schema/resource.rs::ReadWrite for Res::write", "plotline/src/schema/transaction.rs::Target", "plotline/src/deref.rs::WithMut"]}
{"id": "C118", "title": "Invariants of the graph that triggers check hold", "statement": "Let the last trigger before saves return Ok only if saving the target would keep an invariant of the graph, or the last one after saves only if the invariant holds; likewise for deletions; and let the other triggers change the graph by Save and Delete only, and leave the target alone before deletions. Then the invariant holds after every course of transactions that change the graph by Save and Delete only, whatever subtransactions, errors, panics caught or not and resources there are in them; and what an open context shows satisfies it after every such program run on that context, if it did before. So with a check of nodes registered last before saves all nodes pass it, and with two checks of nodes that refer to nodes and know those that refer to them no link dangles. The conditions are needed: a trigger registered later may change what was approved; ctx.save and ctx.delete run no triggers; a Save on the context of an enclosing transaction is checked against what that shows; and Delete deletes what it was asked to although a trigger has put another node in the target.", "quantifier": "every schema, invariant, set of triggers and course of transactions as described, with no bound on nesting", "why_tests_cant": "The tests register triggers that count or fail, one per scheduler, and look at one operation.", "anchors": ["plotline/src/schema/ops/save.rs::Save::execute", "plotline/src/schema/ops/delete.rs::Delete::execute", "plotline/src/schema/transaction.rs::Context", "plotline/src/schema/trigger.rs::TriggerSet"]}
{"id": "C119", "title": "Documents that come and go while the tool runs", "statement": "The file system, and what is ignored, may change in any way while the tool walks over its context, directory by directory, each read over some time. Then list prints ids in strictly ascending order; those of documents that can be seen at every instant of the walk (they are there, not hidden, and nothing on the way to them is ignored) are printed, and of those printed each name on the path was in the directory before it at some instant of the walk, not hidden, not ignored at some instant, and a directory if the path goes on. What can be seen all along is met once. delete succeeds for the former, fails with Noop for what is not glimpsed at any instant, and in any case does one or the other. A document that is moved meanwhile may be listed in both places or in none, and a link that takes the place of a directory may be followed. Where nothing changes the walk meets exactly what can be seen, each once, and it ends: it takes at most twice as many steps as there are files and directories, and one. A listed document that is loaded is what its file held the first time it was dereferenced and could be read, whatever becomes of the file.", "quantifier": "all courses of the file system and of what is ignored over any time; all orders and times in which the system gives the names in directories; all contexts and plain extensions; all instants at which documents are dereferenced", "why_tests_cant": "The course of the file system, and when the system gives which name, are not in the hands of a test; what is missed or listed twice depends on single instants.", "anchors": ["plotline-cli/src/repository.rs:23-38", "plotline-cli/src/repository.rs:43-86", "plotline/src/document/lazy.rs:58-73", "plotline-cli/src/document.rs:80-114"]}
{"id": "C120", "title": "Of ids nothing but their equality matters", "statement": "Replace the ids of all nodes by ids of any other type, in any order, such that two new ids are equal exactly if the old ones are. A program that does with a schema of nodes with the new ids what it did with the old ones (registering resources and triggers, transactions, lookups, iteration, reads and writes) can go on exactly as far, gets the same answer from every call, and leaves the same nodes, triggers (with their ids replaced) and resources; only the order in which nodes are gone through may differ, and does not if the new ids are in the order of the old ones. In particular another Ord of the same ids shows in iteration only. If two nodes' ids are equal on one side only, some program can tell.", "quantifier": "every node and id type, every lawful order, every replacement of ids, every program and history of a schema", "why_tests_cant": "Universal over pairs of types and orders and over programs; relates two executions.", "anchors": ["plotline/src/graph/mod.rs::Graph", "plotline/src/schema/transaction.rs::Context", "plotline/src/id.rs::Identify"]}
{"id": "C121", "title": "The library does not look into nodes and resources", "statement": "Put nodes of any other type in the place of the nodes, each with the id of the one it stands for, and values of any other types in the place of the values of resources. A program that does with them what it did with the others (makes the same calls whenever the answers stand for each other, and saves, registers and writes what stands for what it did before) can go on exactly as far, gets the same answers from every call, with nodes and values that stand for those it got before, in the same places where nodes are gone through, and leaves such nodes, triggers and resources. So parts of nodes that a program does not look at have no influence on what its transactions return. If a node stands for one with another id, some program can tell.", "quantifier": "every pair of node types and of types of values, every relation between nodes that keeps ids and every relation between values, every pair of programs that do the same up to them, every history of a schema", "why_tests_cant": "Universal over types and relations between them; relates two executions.", "anchors": ["plotline/src/graph/mod.rs::Graph", "plotline/src/schema/transaction.rs::Context", "plotline/src/schema/resource.rs::Res", "plotline/src/id.rs::Identify"]}
{"id": "C122", "title": "Of the types of resources nothing but their equality matters", "statement": "The resources of a schema are kept in a map ordered by TypeId, and the order of TypeIds is not specified. Take any two orders under which only equal types compare as equal: a program gets the same answers from everything it does with the schema, whichever of the orders is in force, call by call, including the order in which nodes are gone through, and a transaction at any point ends in the same way, leaving the same nodes and the same values of resources. An order that takes two types for one would show: registering a resource of the second type makes the first one read as absent. Likewise the triggers run for a scheduler are the same, in the same order, however the TypeIds of schedulers are ordered.", "quantifier": "every pair of lawful orders of the types of resources, every history of a schema, every transaction", "why_tests_cant": "The order of TypeIds is fixed by the compiler for a build; no test can vary it.", "anchors": ["plotline/src/schema/resource.rs::ResourceSet", "plotline/src/schema/resource.rs::Res", "plotline/src/schema/mod.rs::Schema"]}
{"id": "C123", "title": "Of intervals nothing but the order of their bounds and their equality matters to the tree", "statement": "Put other intervals, of any type and with bounds of any type, in the place of the intervals, so that their bounds compare with each other as those did, and two are equal when the two they stand for were. A client of the interval tree that makes the same calls with them gets the same answers: insertions and deletions return or hang as before, intersects answers the same, and for_each_intersection passes the intervals that stand for those of before, in the same order. So changing the scale or the origin of time, as from days to hours, changes nothing. Intervals that intersect when those they stand for do not can be told apart.", "quantifier": "every pair of interval and bound types, every relation between intervals under which comparisons agree, every sequence of calls", "why_tests_cant": "Universal over types and relations between them; relates two executions.", "anchors": ["plugins/interval/src/tree.rs::IntervalSearchTree", "plugins/interval/src/node.rs::IntervalSearchTreeNode", "plugins/interval/src/lib.rs::Interval"]}
{"id": "C124", "title": "Of intervals nothing but the order of their bounds and their equality matters to the plugin", "statement": "Install the interval plugin on a schema, and on another one whose nodes have the same ids and whose extractor gives other intervals, of any type, so that bounds compare and intervals are equal as before. Programs that do the same on both, with triggers, transactions and resources of their own, get answers that stand for each other from every call, can go on exactly as far, and leave nodes and indexes that stand for each other. After the same saves and deletions, one after another, the index is there on both or on neither, holds intervals that stand for each other in the same order, and answers queries alike. A deletion that hangs in the tree hangs on both.", "quantifier": "every pair of node, interval and bound types, every relation between them that keeps ids and comparisons, every pair of extractors and programs that agree up to it, every history", "why_tests_cant": "Universal over types and relations between them; relates two executions.", "anchors": ["plugins/interval/src/plugin.rs::IntervalPlugin", "plugins/interval/src/plugin.rs::NodeInterval", "plugins/interval/src/tree.rs::IntervalSearchTree", "plotline/src/schema/mod.rs::Schema"]}
{"id": "C125", "title": "A directory of documents can be somewhere else", "statement": "Take two file systems in which there are the same names below the directories two contexts lead to, whether of files, directories or links. Then every command, with every id, has the same result, prints the same and leaves the same documents in memory on both, wherever the directories are, whatever the working directory and whatever else there is; command lines that differ in nothing but the context, run in any directories, end with the same status, output and error. The exceptions are contexts whose own name the extension matches, and the path - that the walker takes for the standard input. Now let there be the same below them. What an id loads on a way that does not leave the directory, through links or not, it loads in the other place with the same bytes, if no more links lead to that; on a way that leaves it, by a link to what is beside it, what is loaded may depend on that. If there are no links in the directory every id that ends with a name and does not leave it loads the same bytes in both places, or nothing in both.", "quantifier": "every two file systems and contexts with the same below them, every order of the walks, every extension, id and command", "why_tests_cant": "Universal over pairs of file systems; relates two executions.", "anchors": ["plotline-cli/src/repository.rs::LocalDocumentRepository", "plotline-cli/src/document.rs::DocumentCli", "plotline-cli/src/main.rs::main"]}
