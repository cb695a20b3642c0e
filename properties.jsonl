{"id": "C01", "title": "Log tree node numbering is a correct left-balanced tree", "statement": "For a log of n entries, the node-numbering helpers describe one left-balanced binary tree: left/right child and parent are mutually inverse, a sibling is the other child of the parent, the root has no parent, the parent chain of every leaf reaches the root, the full subtrees of a tree of n entries are complete, disjoint, in left-to-right order and cover exactly the entries 0..n-1, and the storage chunk of a node is the chunk containing it.", "quantifier": "for every tree size 1 <= n <= 2^63 and every node of that tree", "why_tests_cant": "the tests compare a handful of small sizes with a table; the domain is 2^63 sizes and bit tricks can fail only at particular carries", "anchors": ["tree/log/math/math.go: Level, Root, Left, Right, Parent, Sibling, DirectPath, Copath, IsFullSubtree, FullSubtrees, Chunk"]}
{"id": "C02", "title": "Appending to the log yields the Merkle tree of all entries", "statement": "After appending any sequence of leaf hashes to an empty log, the full-subtree heads returned by the stateless append and the root computed from them equal the Merkle tree hash of the sequence of leaf hashes (defined recursively by splitting at the largest power of two smaller than n), independent of how the appends were interleaved with reads.", "quantifier": "for every hash function, every length n and every sequence of leaf hashes", "why_tests_cant": "tests append a bounded number of random leaves; the carry structure depends on the binary expansion of n", "anchors": ["tree/log/log.go: Append, Root, treeHash"]}
{"id": "C03", "title": "Stored log and stateless log agree for ever", "statement": "After any history of appends to the stored log tree, each append returns the full-subtree heads of the Merkle tree over exactly the appended leaves, reading any node of the tree back from the stored 8-wide chunks gives its Merkle hash, no append panics, and no append changes the value of a node that existed before.", "quantifier": "for every history of appends starting from an empty store", "why_tests_cant": "chunk boundaries are crossed at every power of eight; only the invariant over all histories shows no leaf is lost or overwritten", "anchors": ["tree/log/log.go: Tree.Append, Tree.GetBatch, Tree.fetch", "tree/log/chunk.go: newChunk, nodeChunk.get, nodeChunk.set, nodeChunk.marshal"]}
{"id": "C04", "title": "Honest batch inclusion/consistency proofs verify", "statement": "For every log, every set of requested entries, every optional previous size and every optional size whose subtrees must be included, the proof the log produces is accepted by the verifier and evaluates to the heads whose combination is the true root of the log (and of the extra requested size).", "quantifier": "for all logs, all non-empty requested entry sets, all previous sizes m <= n and all extra sizes n' <= n", "why_tests_cant": "number of (n, m, n', subset) combinations is unbounded; tests sample random ones", "anchors": ["tree/log/log.go: Tree.GetBatch", "tree/log/verify.go: Verifier.Evaluate, Verifier.Retain", "tree/log/math/math.go: BatchCopath"]}
{"id": "C05", "title": "Log inclusion proofs are sound", "statement": "If a verifier evaluates a batch proof for entries with claimed leaf values and obtains the root of a log, then every claimed leaf value is the leaf value at that position in the log, and the response is the only one accepted (two accepted responses for the same entries have the same values and the same proof elements), unless the hash inputs of the two computations contain a collision.", "quantifier": "for every log, every proof byte string an adversary sends, every claimed set of entries and values", "why_tests_cant": "soundness quantifies over all adversarial proofs", "anchors": ["tree/log/verify.go: Verifier.Evaluate", "tree/log/log.go: Root"]}
{"id": "C06", "title": "Log consistency proofs are sound: the log is append-only", "statement": "If a verifier that retained the heads of an m-entry log accepts a proof against the root of an n-entry log, then the retained heads are those of the first m entries of that log (history was not rewritten), unless the hash inputs contain a collision.", "quantifier": "for every pair of sizes m <= n, every retained head list, every adversarial proof", "why_tests_cant": "quantifies over all adversaries and all sizes", "anchors": ["tree/log/verify.go: Verifier.Retain, Verifier.Evaluate"]}
{"id": "C07", "title": "The prefix tree root is determined by its contents", "statement": "Two prefix trees reached by any histories of additions and removals that contain the same (VRF output, commitment) pairs have the same root hash; and different contents give different roots unless the hash inputs contain a collision or an all-zero digest.", "quantifier": "for all histories of mutations and all sets of equal-length VRF outputs", "why_tests_cant": "history independence is a property of all pairs of histories", "anchors": ["tree/prefix/prefix.go: addRemoveEntries, Tree.Mutate", "tree/prefix/nodes.go: parentNode.Hash, leafNode.Hash, emptyNode.Hash"]}
{"id": "C08", "title": "Prefix tree mutation implements a finite map", "statement": "Adding entries and removing VRF outputs gives a tree holding exactly the old entries minus the removed ones plus the added ones; adding a VRF output that is present (and not removed by the same call) or listing the same VRF output twice, or removing one that is absent, is rejected with an error and changes nothing.", "quantifier": "for every tree and every add/remove batch", "why_tests_cant": "the trie surgery (splitting leaves, collapsing parents) has unboundedly many shapes", "anchors": ["tree/prefix/prefix.go: Tree.Mutate, getMutationRoot, addRemoveEntries"]}
{"id": "C09", "title": "Prefix tree search answers correctly and its proof verifies", "statement": "Searching a version of the prefix tree for any list of VRF outputs reports each one as included exactly when it is in the map at that version, returns its commitment, and the produced proof evaluates to the root hash of that version.", "quantifier": "for every tree contents and every list of requested VRF outputs", "why_tests_cant": "all shapes of tries and batches of lookups", "anchors": ["tree/prefix/prefix.go: Tree.Search, runProofBuilder, build", "tree/prefix/verify.go: Evaluate, Verify"]}
{"id": "C10", "title": "Accepted prefix inclusion proofs are sound", "statement": "If a batch prefix-tree proof is accepted against the root of a tree and says an entry (VRF output, commitment) is included, the tree contains that pair, unless the hash inputs contain a collision.", "quantifier": "for every tree and every adversarial proof", "why_tests_cant": "quantifies over all adversarial proofs", "anchors": ["tree/prefix/verify.go: Evaluate, Verify, addToSkeleton, fillInCopath"]}
{"id": "C11", "title": "Accepted prefix non-inclusion proofs are sound", "statement": "If a batch prefix-tree proof is accepted against the root of a tree and says a VRF output is not included, the tree does not contain that VRF output, unless the hash inputs contain a collision or an all-zero digest.", "quantifier": "for every tree and every adversarial proof", "why_tests_cant": "quantifies over all adversarial proofs, in particular ones no honest server builds", "anchors": ["tree/prefix/verify.go: addToSkeleton", "tree/prefix/proof.go: nonInclusionLeafProof, nonInclusionParentProof"]}
{"id": "C12", "title": "Auditor's before/after evaluation matches the log's mutation", "statement": "For every mutation the log performs, evaluating the produced batch proof with the added and removed entries yields the root before the mutation and the root after it.", "quantifier": "for every tree and every add/remove batch", "why_tests_cant": "the verifier re-runs the surgery on a partial skeleton; agreement must hold for all shapes", "anchors": ["tree/prefix/verify.go: EvaluateBeforeAfter", "tree/prefix/prefix.go: Tree.Mutate"]}
{"id": "C13", "title": "A mutation that changes nothing leaves a usable tree", "statement": "Publishing a new version with no additions and no removals (or removing only labels that do not exist) yields a version with the same root hash whose data can be read back.", "quantifier": "for every non-empty tree", "why_tests_cant": "no test performs a no-op mutation after the first version; the defect shows only on later reads", "anchors": ["tree/prefix/prefix.go: getMutationRoot, Tree.Mutate", "tree/prefix/batch.go: batch.initialize", "tree/transparency/mutate.go: Tree.Mutate"]}
{"id": "C14", "title": "Tiling and reloading a prefix tree loses nothing", "statement": "Splitting a tree into size-limited tiles, storing them and following external references when reading back reconstructs the same tree (same contents and same hashes); tile ids are consecutive and every reference leads to a stored node with the referenced hash at the position of the reference (for tiles of the same version, to the root of that tile); splitting terminates.", "quantifier": "for every tree whose node encodings are small relative to the tile size limit", "why_tests_cant": "tile boundaries depend on the exact accumulated weight; tests see one or two levels of tiles", "anchors": ["tree/prefix/nodes.go: makeTile, splitIntoTiles, tile.Marshal, unmarshalTile", "tree/prefix/batch.go: batch.search, cursor.step"]}
{"id": "C15", "title": "Past prefix tree versions are immutable", "statement": "Mutating the prefix tree never changes what a search at any earlier version returns.", "quantifier": "for every history of mutations and every earlier version", "why_tests_cant": "a property of all pairs of versions", "anchors": ["tree/prefix/prefix.go: Tree.Mutate, Tree.Search", "db/db.go: PrefixStore"]}
{"id": "C16", "title": "The implicit search tree over log entries is a search tree", "statement": "Over log positions 0..n-1: the root, left and right child and parent functions describe a binary search tree containing every position exactly once; the frontier is the path from the root to position n-1; the left/right direct paths of a position are exactly its ancestors to the left/right of it.", "quantifier": "for every tree size n >= 1 and every position", "why_tests_cant": "bit arithmetic over all 2^64 sizes", "anchors": ["tree/transparency/math/math.go: Root, Left, Right, Parent, IsLeaf, Frontier, LeftDirectPath, RightDirectPath"]}
{"id": "C17", "title": "Every request that decodes is answered without crashing", "statement": "A client request with any field values is answered with a response or an error; it never makes the server panic.", "quantifier": "for every value of the client-supplied previous tree size", "why_tests_cant": "only the particular value zero crashes; tests use sizes taken from real tree heads", "anchors": ["tree/transparency/transparency.go: Tree.fullTreeHead, Tree.updateView", "tree/transparency/math/math.go: Frontier, Right, rightStep"]}
{"id": "C18", "title": "Updating the view covers the new frontier", "statement": "After a client that knows the frontier timestamps of an m-entry log updates its view to n entries, it knows the timestamp of every entry on the frontier of the n-entry log.", "quantifier": "for all m <= n", "why_tests_cant": "fails only for particular pairs (m,n); tests check a few", "anchors": ["tree/transparency/math/math.go: UpdateView", "tree/transparency/algorithms/algorithms.go: UpdateView"]}
{"id": "C19", "title": "Binary ladders terminate and bracket the version", "statement": "For every version number, the binary ladder for it is computed in finite time, contains the version itself, and is a bisection: the lookups at or below the version rise to it and those above it fall towards it.", "quantifier": "for every 32-bit version", "why_tests_cant": "needs all 2^32 versions; only huge versions fail, by never terminating", "anchors": ["tree/transparency/math/ladders.go: baseBinaryLadder, SearchBinaryLadder, MonitoringBinaryLadder"]}
{"id": "C20", "title": "Interpreting a search ladder gives the true comparison", "statement": "If versions 0..g (and no others) exist at a log entry, walking the search ladder for target version t against that entry and interpreting the results yields: less, equal or greater according to whether g is less than, equal to or greater than t; and any answer pattern that is not consistent with a set of the form {0..g} is never interpreted as equal unless it includes t and excludes t's upper bound in the ladder.", "quantifier": "for all targets t and all greatest versions g (including none)", "why_tests_cant": "all pairs of versions", "anchors": ["tree/transparency/math/ladders.go: InterpretSearchLadder, SearchBinaryLadder"]}
{"id": "C21", "title": "Omitting ladder lookups already proven elsewhere is safe", "statement": "Dropping from a ladder the versions already proven included to the left or proven absent to the right does not change the interpretation, provided the greatest version never decreases from left to right and the search moves right of an entry only when the greatest version there is at most the target, left of it only when it is at least the target.", "quantifier": "for every history of lookups with monotone greatest versions and every target", "why_tests_cant": "all interleavings of left/right visits", "anchors": ["tree/transparency/math/tracker.go: VersionTracker", "tree/transparency/math/ladders.go: SearchBinaryLadder"]}
{"id": "C22", "title": "Server and client walk the same ladder", "statement": "For every log entry visited by a search, the sequence of versions the server proves is a prefix of the sequence the client expects, of exactly the length at which the client stops reading.", "quantifier": "for all targets, all greatest versions and all previously proven versions consistent with a monotone history", "why_tests_cant": "prover and verifier are separate code; agreement needed for all inputs", "anchors": ["tree/transparency/algorithms/proof_handle.go: ReceivedProofHandle.GetSearchBinaryLadder, ProducedProofHandle.GetSearchBinaryLadder"]}
{"id": "C23", "title": "The rightmost distinguished log entry is found", "statement": "The algorithm that locates the rightmost distinguished log entry returns the greatest position that is distinguished according to the recursive definition, and reports none exactly when no entry is distinguished.", "quantifier": "for every tree size, every timestamp assignment and every monitoring window", "why_tests_cant": "all timestamp sequences", "anchors": ["tree/transparency/algorithms/algorithms.go: RightmostDistinguished"]}
{"id": "C24", "title": "The previous rightmost distinguished log entry is found", "statement": "The algorithm that locates the distinguished log entry before the last one returns the greatest distinguished position smaller than n-1, and reports none exactly when there is no such entry.", "quantifier": "for every tree size, every non-decreasing timestamp assignment and every monitoring window", "why_tests_cant": "all timestamp sequences", "anchors": ["tree/transparency/algorithms/algorithms.go: PreviousRightmost"]}
{"id": "C25", "title": "Distinguished entries stay distinguished", "statement": "If an entry is distinguished in an n-entry log then it is distinguished in every extension of that log with non-decreasing timestamps.", "quantifier": "for all extensions of a log", "why_tests_cant": "unbounded future", "anchors": ["tree/transparency/structs/config.go: IsDistinguished", "tree/transparency/algorithms/algorithms.go: RightmostDistinguished"]}
{"id": "C26", "title": "Greatest-version search is correct", "statement": "On a log where each label's versions are only ever added, searching for the greatest version succeeds for a label whose greatest version is g exactly when the client is told g, and returns the first entry at or right of the rightmost distinguished entry on the frontier that contains it; being told any other version is rejected.", "quantifier": "for every log history, label and claimed version", "why_tests_cant": "adversarial claims over all histories", "anchors": ["tree/transparency/algorithms/search.go: GreatestVersionSearch"]}
{"id": "C27", "title": "Fixed-version search finds an entry containing the version", "statement": "On an honest log, searching for a version t that exists ends at an unexpired entry that contains t and either has t as its greatest version or is the first unexpired entry containing t; it reports not found exactly when t does not exist; it reports expired only when the terminal entry lies to the left of every unexpired distinguished entry.", "quantifier": "for every log history, label, target version, timestamps and lifetime", "why_tests_cant": "all histories; off-by-one in expiry only shows for particular shapes", "anchors": ["tree/transparency/algorithms/search.go: FixedVersionSearch"]}
{"id": "C28", "title": "Timestamps accepted by a client are non-decreasing in position", "statement": "At every point in any sequence of timestamp requests, retained values and proofs, the timestamps a client holds are non-decreasing in log position, and re-reading a position returns the same value.", "quantifier": "for every sequence of operations and every server behaviour", "why_tests_cant": "all orders of access", "anchors": ["tree/transparency/algorithms/data_provider.go: DataProvider.addTimestamp, GetTimestamp, AddRetained"]}
{"id": "C29", "title": "Contact monitoring moves monitored positions to distinguished entries", "statement": "A successful contact-monitoring run replaces every monitored position by a position on its right direct path, never lowers the version monitored at a position, drops positions only once they reach a distinguished entry, and leaves the monitoring state unchanged when it fails.", "quantifier": "for every set of monitored positions and every log", "why_tests_cant": "all maps and logs", "anchors": ["tree/transparency/algorithms/monitor.go: Monitor.ContactMonitor, contactMonitor"]}
{"id": "C30", "title": "Owner monitoring bookkeeping is exact", "statement": "Advancing an owner's monitoring start point keeps the total number of known versions, keeps the answer to 'greatest version at position x' for every x at or after the new start, and a failed monitoring run leaves the state unchanged; the start position never moves backwards.", "quantifier": "for every owner state and every target position", "why_tests_cant": "all states", "anchors": ["tree/transparency/algorithms/monitor.go: OwnerState.SetStarting, GreatestVersionAt, Monitor.OwnerMonitor"]}
{"id": "C31", "title": "The auditor only signs append-only, monotone histories", "statement": "Whenever the auditor accepts an update, the tree size grows by exactly one, the timestamp does not decrease, the prefix tree root before the update is the root the auditor last computed, the new root is the one resulting from the listed additions and removals, and the log heads are extended by exactly that entry; when it rejects an update nothing changes.", "quantifier": "for every auditor state and every update a log sends", "why_tests_cant": "adversarial updates", "anchors": ["tree/transparency/auditor/auditor.go: Auditor.Process, updateState"]}
{"id": "C32", "title": "The auditor rejects removal of unpublished entries", "statement": "The auditor rejects any update that removes an entry added since the last distinguished log entry.", "quantifier": "for every sequence of updates", "why_tests_cant": "needs a three-step history; the tests never remove anything", "anchors": ["tree/transparency/auditor/auditor.go: Auditor.updateState, Process", "tree/transparency/auditor/state.go: addedSince, mergeInserted"]}
{"id": "C33", "title": "A fresh auditor starts from the empty tree", "statement": "The first update accepted by a fresh auditor starts from the empty prefix tree.", "quantifier": "for every first update", "why_tests_cant": "adversarial first update", "anchors": ["tree/transparency/auditor/auditor.go: Auditor.Process"]}
{"id": "C34", "title": "The auditor accepts everything an honest log publishes", "statement": "Each auditor update produced by an honest log's mutation is accepted by an auditor that has processed all earlier ones, and leads to the same root.", "quantifier": "for every history of label additions and removals", "why_tests_cant": "tests only add; removals take different code paths in log and auditor", "anchors": ["tree/transparency/auditor/auditor.go: Auditor.Process", "tree/transparency/mutate.go: Tree.Mutate", "tree/prefix/verify.go: EvaluateBeforeAfter"]}
{"id": "C35", "title": "Auditor state survives a restart", "statement": "Writing the auditor state and reading it back yields the same state.", "quantifier": "for every reachable auditor state", "why_tests_cant": "all states", "anchors": ["tree/transparency/auditor/state.go: AuditorState.Marshal, NewAuditorState"]}
{"id": "C36", "title": "Versions are assigned consecutively and positions never decrease", "statement": "For every history of mutations, each label's versions are numbered 0,1,2,... in submission order, the log positions recorded for them are non-decreasing and smaller than the tree size, and version v of a label is in the prefix tree of log entry x exactly when its recorded position is at most x (as long as the label has not been removed).", "quantifier": "for all histories of batches", "why_tests_cant": "all histories and batch groupings", "anchors": ["tree/transparency/mutate.go: Tree.Mutate, groupByLabel, mutateLabel", "tree/transparency/algorithms/proof_handle.go: greatestAt"]}
{"id": "C37", "title": "The label index encoding is lossless", "statement": "Writing a label's list of log positions and reading it back yields the same list.", "quantifier": "for every non-decreasing list of 64-bit positions", "why_tests_cant": "varint edge cases over all 64-bit values", "anchors": ["tree/transparency/crypto.go: batchGetIndex, putIndex"]}
{"id": "C38", "title": "A crash during commit leaves the old or the new state", "statement": "If the process crashes at any point of a database commit, the data found on restart is equivalent to the state before or the state after the commit.", "quantifier": "for every set of writes and every crash point", "why_tests_cant": "crash points between two writes are not exercised by tests", "anchors": ["db/leveldb.go: ldbConn.Commit"]}
{"id": "C39", "title": "Database keys of different records never collide", "statement": "Label indices, label versions, log entries, log chunks, prefix tiles and tree heads are stored under pairwise different keys, and different labels/versions/ids of one kind get different keys.", "quantifier": "for all labels, versions and ids", "why_tests_cant": "all byte strings", "anchors": ["db/leveldb.go: ldbTransparencyStore, ldbLogStore, ldbPrefixStore"]}
{"id": "C40", "title": "Uncommitted writes are visible to their writer and only to it", "statement": "Within a transaction a read returns the last value written (or the stored one if none), and nothing reaches the database before commit; commit makes exactly the last written values visible.", "quantifier": "for every sequence of reads, writes and commits", "why_tests_cant": "all interleavings", "anchors": ["db/leveldb.go: ldbConn.Get, Put, Commit"]}
{"id": "C41", "title": "A service operator signs consecutive versions", "statement": "In managed mode the versions signed for a label over any sequence of updates are 0,1,2,... without gaps or repetition.", "quantifier": "for every sequence of update batches", "why_tests_cant": "defect appears from the second batch on", "anchors": ["tree/transparency/managed/managed.go: Update", "db/memory/memory.go: ManagedLogStore.IncrementGreatestVersion"]}
{"id": "C42", "title": "A new client can accept its first response", "statement": "A client with no stored state that receives a correct response to its first query returns the answer and a new state.", "quantifier": "for every correct first response", "why_tests_cant": "the client has no end-to-end test", "anchors": ["tree/transparency/client_crypto.go: verifier.finish, verifyTreeHead"]}
{"id": "C43", "title": "A client with state can follow the log", "statement": "A client holding a state for an m-entry log accepts a correct response for a longer log and moves to it.", "quantifier": "for all m < n", "why_tests_cant": "the client has no end-to-end test", "anchors": ["tree/transparency/client_crypto.go: verifier.verifyTreeHead"]}
{"id": "C44", "title": "A client never accepts an unsigned, stale or shrinking tree head", "statement": "Whenever a client accepts a new tree head, the log's signature over (configuration, size, root) verifies, the rightmost timestamp is within the permitted clock window, the tree does not shrink, and (in auditing mode) the auditor's signature, lag and ordering checks hold.", "quantifier": "for every response a server sends", "why_tests_cant": "adversarial responses", "anchors": ["tree/transparency/client_crypto.go: newVerifier, verifyTreeHead", "tree/transparency/algorithms/algorithms.go: UpdateView"]}
{"id": "C45", "title": "Responses about an unchanged tree verify", "statement": "If the client already has the current tree head, the server's proof for it is accepted.", "quantifier": "for every log and every set of inspected entries", "why_tests_cant": "prover and verifier disagree only when the previous size equals the current one", "anchors": ["tree/transparency/transparency.go: Tree.fullTreeHead", "tree/transparency/algorithms/data_provider.go: DataProvider.Finish", "tree/log/math/math.go: BatchCopath"]}
{"id": "C46", "title": "Client state survives a restart", "statement": "Encoding a client's persistent state and decoding it yields the same state.", "quantifier": "for every client state", "why_tests_cant": "all states; owner states take a different path", "anchors": ["tree/transparency/structs/client.go: ClientLabelState.Marshal, NewClientLabelState, LabelOwnerState.Marshal, NewLabelOwnerState"]}
{"id": "C47", "title": "Wire messages round-trip", "statement": "Every request/response structure that encodes successfully decodes to the same structure, consuming exactly the bytes written; over-long fields are refused when encoding.", "quantifier": "for every structure value and every suffix of following bytes", "why_tests_cant": "all field values and lengths", "anchors": ["tree/transparency/structs/structs.go", "tree/transparency/structs/operations.go", "tree/transparency/structs/proofs.go", "tree/transparency/structs/crypto.go", "tree/transparency/structs/tree_head.go", "tree/transparency/structs/third_party.go"]}
{"id": "C48", "title": "Signed, committed and VRF-input byte strings are unambiguous", "statement": "Two different (configuration, size, root) statements, two different (label, version, value) updates, two different committed values and two different (label, version) VRF inputs never have the same byte encoding.", "quantifier": "for all pairs of values", "why_tests_cant": "injectivity is about all pairs", "anchors": ["tree/transparency/structs/tree_head.go: TreeHeadTBS, AuditorTreeHeadTBS", "tree/transparency/structs/crypto.go: UpdateTBS, CommitmentValue, VrfInput", "tree/transparency/structs/config.go: PublicConfig.Marshal"]}
{"id": "C49", "title": "Prefix proofs round-trip on the wire", "statement": "Every prefix-tree proof produced by a search survives encoding and decoding.", "quantifier": "for every tree and search", "why_tests_cant": "fails only for leaves at the greatest possible depth or batches above 255 results", "anchors": ["tree/prefix/proof.go: PrefixProof.Marshal, NewPrefixProof"]}
{"id": "C50", "title": "VRF proofs from the key holder verify", "statement": "A VRF proof made with a private key verifies under the corresponding public key for the same input and yields the same output.", "quantifier": "for all keys, inputs and nonces in a prime-order group", "why_tests_cant": "all keys and messages", "anchors": ["crypto/vrf/p256/p256.go: Prove, verify", "crypto/vrf/edwards25519/edwards25519.go: Prove, Verify"]}
{"id": "C51", "title": "VRF outputs cannot be equivocated", "statement": "Two accepting VRF transcripts with the same commitments but different challenges can only exist if the claimed output point is the one determined by the public key, so a key holder cannot present a second output without predicting the challenge hash.", "quantifier": "for all transcripts in a prime-order group", "why_tests_cant": "adversarial provers", "anchors": ["crypto/vrf/p256/p256.go: verify", "crypto/vrf/edwards25519/edwards25519.go: Verify"]}
{"id": "C52", "title": "Commitments bind and open", "statement": "A commitment to a value verifies with its opening; and two different (opening, value) pairs that verify against the same commitment exhibit a collision of the keyed hash.", "quantifier": "for all values and openings", "why_tests_cant": "adversarial openings", "anchors": ["crypto/commitments/commitments.go: Commit, Verify"]}
{"id": "C53", "title": "A client configuration that would disable verification is refused", "statement": "A client is only created with a configuration whose mode is known and which carries exactly the keys its mode needs; otherwise creation fails.", "quantifier": "for every configuration", "why_tests_cant": "all configurations", "anchors": ["tree/transparency/client.go: NewClient"]}
{"id": "C54", "title": "Label updates from the server can be monitored by the owner", "statement": "Whenever the server applies an owner's update, the update response it produces is obtainable and verifiable by the owner.", "quantifier": "for every history and update batch", "why_tests_cant": "the update path has no end-to-end test", "anchors": ["tree/transparency/update.go: updater.next, updateLadderVersions", "tree/transparency/algorithms/update.go: Monitor.Update", "tree/transparency/algorithms/proof_handle.go: ReceivedProofHandle.GetInclusionProof"]}
{"id": "C55", "title": "A version proof request is answered in bounded work", "statement": "The number of versions looked up for any single version is at most 2*32+1.", "quantifier": "for every 32-bit version whose ladder terminates", "why_tests_cant": "all versions", "anchors": ["tree/transparency/math/ladders.go: baseBinaryLadder"]}
{"id": "C56", "title": "A label owner's update check covers every new version", "statement": "When Monitor.Update(pos, k) succeeds, pos is right of every version known before, the owner's expectations change by exactly k versions from pos on, every new version was proved included at pos except those looked up by the ladder for the greatest one, every unchecked non-distinguished entry on the right edge of the previous tree was shown to contain no further version, and the new version is monitored unless pos is distinguished. It never crashes.", "quantifier": "for every owner state, every position and number of versions, and every behaviour of the other side", "why_tests_cant": "all tree sizes, positions and adversarial answers", "anchors": ["tree/transparency/algorithms/update.go: Monitor.Update, verifyPreviousTree, nonDistinguishedAncestor"]}
{"id": "C57", "title": "An auditor never equivocates", "statement": "All tree heads an auditor ever returns, over any number of failed commits and restarts, are signed heads of prefixes of one append-only log; in particular it never returns two different heads for the same tree size.", "quantifier": "for all sequences of updates, commits, database failures and restarts", "why_tests_cant": "needs a database failure between two commits followed by a restart", "anchors": ["tree/transparency/auditor/auditor.go: Auditor.Commit, NewAuditor"]}
{"id": "C58", "title": "The published tree head covers the whole log", "statement": "After any history of mutations, failed mutations and restarts, the tree head the server holds and has stored is a signature over the configuration, the number of mutations, and the Merkle root of all log entries; every entry is readable, holds the time of its mutation, and the root hash of the set of everything added and not removed up to then.", "quantifier": "for all histories of batches, failures and restarts", "why_tests_cant": "all histories; tests compare a few roots", "anchors": ["tree/transparency/mutate.go: Tree.Mutate, Tree.issueTreeHead", "tree/transparency/transparency.go: NewTree"]}
{"id": "C59", "title": "A client can read the state it has stored", "statement": "After a client accepts a response and writes its state, reading the state back gives the state that was written.", "quantifier": "for every accepted response, in every deployment mode", "why_tests_cant": "only shows in auditing mode after a response about an unchanged tree", "anchors": ["tree/transparency/client_crypto.go: verifier.finish", "tree/transparency/structs/client.go: NewClientState, ClientState.Marshal"]}
{"id": "C60", "title": "What a client accepts as a search result is in the log", "statement": "When a client accepts the response to a Search, and the tree head it is verified against is that of a log in which versions of the label are never removed: the value in the response opens the commitment that the log holds for the version at the returned position; if no version was asked for, the version is the greatest one in the last log entry; if one was asked for, the position is a terminal entry for it; and the log entries and subtree hashes that the client then stores are those of the log. Otherwise two of the strings hashed collide.", "quantifier": "for every response whatever, every client state that is right for the log, every log and label", "why_tests_cant": "quantifies over malicious servers, which no test exercises", "anchors": ["tree/transparency/client.go: Client.search", "tree/transparency/client_crypto.go: verifier.processLadder, verifier.updateView, verifier.finish", "tree/transparency/algorithms/search.go: GreatestVersionSearch, FixedVersionSearch", "tree/transparency/algorithms/proof_handle.go: ReceivedProofHandle", "tree/transparency/algorithms/data_provider.go: DataProvider.Finish"]}
{"id": "C61", "title": "Proofs have no slack", "statement": "A verifier accepts only one response for given entries of a log and only one list of copath elements for given results of a prefix tree search: elements can not be added, left out or changed without the proof being rejected, unless two of the strings hashed collide.", "quantifier": "for every log, every prefix tree root and every two proofs", "why_tests_cant": "malleability would show only with proofs that no honest party makes", "anchors": ["tree/log/verify.go: Verifier.Evaluate", "tree/prefix/verify.go: evaluate, fillInCopath"]}
{"id": "C62", "title": "The answers of an honest server convince an honest client", "statement": "After any history, the server answers a Search for a label with the last version, or with the requested version, of the value that was stored; and an honest client which has a state of an earlier point of the same log accepts the answer, ends at a log entry containing the version, and stores a right state.", "quantifier": "for all histories, labels, versions, earlier client states and clocks within the configured window", "why_tests_cant": "tests check the parts against each other, none runs server and client together over arbitrary histories", "anchors": ["tree/transparency/transparency.go: Tree.Search", "tree/transparency/client.go: Client.search", "tree/transparency/client_crypto.go: verifier.processLadder, verifier.updateView, verifier.finish", "tree/transparency/algorithms/search.go: GreatestVersionSearch, FixedVersionSearch"]}
{"id": "C63", "title": "A client learns that a label has no versions", "statement": "When a label has no version, an honest client that searches for its greatest version, or for any given version, gets the answer that it does not exist.", "quantifier": "for all histories in which the label does not occur, all client states and deployment modes", "why_tests_cant": "the error that the client gives for an absent label is never tested against the server", "anchors": ["tree/transparency/transparency.go: Tree.Search", "tree/transparency/client.go: Client.search", "tree/transparency/client_crypto.go: verifyUpdateValue, verifier.processLadder"]}
{"id": "C64", "title": "A client reports absence only if the log shows it", "statement": "When a client reports that a requested version does not exist or has expired, then this is so in the log whose tree head the provider signed.", "quantifier": "for every response whatever, every log and label", "why_tests_cant": "quantifies over malicious servers", "anchors": ["tree/transparency/client.go: Client.search", "tree/transparency/algorithms/search.go: FixedVersionSearch", "tree/transparency/client_crypto.go: verifier.finish"]}
{"id": "C65", "title": "The monitoring map that a client keeps is one that the server accepts", "statement": "After any sequence of searches and monitoring requests against an honest server, the monitoring map that the client sends for a label passes the server's check: positions and versions strictly increase, and every position is the log entry where the version appeared or one above and to the right of it.", "quantifier": "for all logs, labels, sequences of requests and orders of iteration over Go's maps", "why_tests_cant": "the order of iteration is random, and no test sends a map that results from two searches", "anchors": ["tree/transparency/client_crypto.go: updateContactState, simplifyMonitoringMap", "tree/transparency/monitor.go: verifyEntries", "tree/transparency/algorithms/monitor.go: Monitor.ContactMonitor"]}
{"id": "C66", "title": "Simplifying the monitoring map drops nothing", "statement": "When a client adds the result of a search to its monitoring map and removes redundant entries, this ends, and every version it had to monitor at a position, including the new one, is still monitored there or at a log entry above and to the right, for that version or a later one. Nothing but the version that was found is added.", "quantifier": "for all maps, positions, versions, tree sizes and orders of iteration over Go's maps", "why_tests_cant": "the order of iteration is random and differs from run to run", "anchors": ["tree/transparency/client_crypto.go: updateContactState, simplifyMonitoringMap", "tree/transparency/math/math.go: RightDirectPath"]}
{"id": "C67", "title": "Monitoring against an honest server succeeds", "statement": "After any history, the server answers the monitoring request of a client that monitors versions of a label, or owns it; the client, which has a state of an earlier point of the same log, accepts the answer, and stores a monitoring map and an owner state that are again right: every version still to be monitored is, finished ones are dropped, and the version at the owner's new starting position is the one in the log.", "quantifier": "for all histories, labels, monitoring maps, owner states, earlier client states and clocks within the configured window", "why_tests_cant": "tests of the client use no server, and none has an owner without monitored versions, or monitoring that ends", "anchors": ["tree/transparency/monitor.go: Tree.ContactMonitor, Tree.OwnerMonitor", "tree/transparency/client.go: Client.contactMonitor, Client.ownerMonitor", "tree/transparency/algorithms/monitor.go: Monitor.ContactMonitor, Monitor.OwnerMonitor, ContactState.Struct"]}
{"id": "C68", "title": "With third-party management clients accept only values signed by the operator", "statement": "With third-party management, the value that a client accepts in answer to a search, and each value for which it accepts the answer to an update, has been signed by the operator for exactly this label, this version and this value. In the other modes a value that comes with a signature is refused.", "quantifier": "for all responses, client states, labels and versions, given that the operator's key verifies nothing but updates that the operator signed", "why_tests_cant": "quantifies over malicious servers", "anchors": ["tree/transparency/client_crypto.go: verifyUpdateValue", "tree/transparency/client.go: Client.search, StreamVerifier.verifyValues", "tree/transparency/structs/crypto.go: UpdateTBS.Marshal"]}
{"id": "C69", "title": "An accepted monitoring answer shows that monitored versions are still there", "statement": "When a client that monitors versions of a label accepts the answer to a monitoring request, and the tree head it is verified against is that of a log: every monitored version, or a later one that is monitored too, is in all log entries above the monitored position and to its right, up to the first distinguished one, with the commitment the client retained; a version is dropped from the monitoring map only if there is such a distinguished entry; what is left is in the right places, and the state that the client then stores is that of the log. Otherwise two of the strings hashed collide.", "quantifier": "for every response whatever, every monitoring map, every client state that is right for the log, every log and label", "why_tests_cant": "quantifies over malicious servers, which no test exercises", "anchors": ["tree/transparency/client.go: Client.contactMonitor", "tree/transparency/algorithms/monitor.go: Monitor.ContactMonitor", "tree/transparency/algorithms/proof_handle.go: ReceivedProofHandle", "tree/transparency/client_crypto.go: updateRetainedVersions, verifier.finish"]}
{"id": "C70", "title": "An accepted answer to the owner shows that nobody else changed the label", "statement": "When the owner of a label accepts the answer to a monitoring request, and the tree head it is verified against is that of a log: in every distinguished log entry after the old starting position and up to the new one the greatest version of the label is the one that the owner created last before, with the commitment that the owner retained. Otherwise two of the strings hashed collide.", "quantifier": "for every response whatever, every owner state, every client state that is right for the log, every log and label", "why_tests_cant": "quantifies over malicious servers, which no test exercises", "anchors": ["tree/transparency/client.go: Client.ownerMonitor", "tree/transparency/algorithms/monitor.go: Monitor.OwnerMonitor", "tree/transparency/algorithms/proof_handle.go: ReceivedProofHandle", "tree/prefix/verify.go: evaluate"]}
{"id": "C71", "title": "A label can be looked up again while it is monitored", "statement": "If a client has accepted the response of a search and monitors the label since, then it accepts a right response to the next search for the label too, and merges what it learns into the monitoring state; likewise it can become the owner of the label.", "quantifier": "for all label states that a search leaves behind, all responses", "why_tests_cant": "the second search for the same label between two distinguished entries is a state-dependent case that single-request tests do not reach", "anchors": ["tree/transparency/client.go: Client.search, Client.ownerInit", "tree/transparency/client_crypto.go: verifier.addLabelState, updateRetainedVersions", "tree/transparency/algorithms/proof_handle.go: addVersion"]}
{"id": "C72", "title": "An accepted initialization answer gives the owner the true versions of the label", "statement": "When a client accepts the answer to an OwnerInit request, and the tree head it is verified against is that of a log: the starting position is a distinguished log entry that has not expired; in it, and in each of its unexpired ancestors to the left, the greatest version of the label is the one that the answer says; the owner starts with the greatest version of the starting position, and the commitments retained for its ladder are those of that entry; the state that the client then stores is that of the log. Otherwise two of the strings hashed collide.", "quantifier": "for every response whatever, every starting position, every client state that is right for the log, every log and label", "why_tests_cant": "quantifies over malicious servers, which no test exercises", "anchors": ["tree/transparency/client.go: Client.ownerInit", "tree/transparency/algorithms/monitor.go: Monitor.OwnerInit", "tree/transparency/algorithms/proof_handle.go: ReceivedProofHandle", "tree/prefix/verify.go: evaluate"]}
{"id": "C73", "title": "The owner of a label can add a version and monitors it", "statement": "When the owner of a label asks for an update, the values become new versions of the label in a log entry, and the server's answer is right, then the client accepts the answer, monitors the last new version if the log entry is not distinguished, and retains the commitments of all new versions.", "quantifier": "for every response whatever, every owner and label state, every client state that is right for the log, every log and label", "why_tests_cant": "there is no test of updates that runs a server and a client against each other", "anchors": ["tree/transparency/client.go: StreamVerifier.Verify", "tree/transparency/update.go: updateLadderVersions", "tree/transparency/client_crypto.go: verifier.processLadder, updateRetainedVersions"]}
{"id": "C74", "title": "An accepted answer to an update shows that the owner's values are in the log", "statement": "When the owner of a label accepts the answer to an update, and the tree head it is verified against is that of a log: each value that the owner sent is in the log entry that the answer names, as the version that follows those known before, with the commitment that the owner computes from the value and the opening; no other version came before it on the right edge of the log; unless the entry is distinguished the last new version is the greatest in it; and the owner state that is stored has the new versions at that entry. Otherwise two of the strings hashed collide.", "quantifier": "for every response whatever, every request, every owner and label state, every client state that is right for the log, every log and label", "why_tests_cant": "quantifies over malicious servers, which no test exercises", "anchors": ["tree/transparency/client.go: StreamVerifier.Verify, StreamVerifier.verifyValues", "tree/transparency/algorithms/monitor.go: Monitor.Update, Monitor.verifyPreviousTree", "tree/transparency/update.go: updateLadderVersions", "tree/transparency/client_crypto.go: verifier.processLadder"]}
{"id": "C75", "title": "The server initializes owners at distinguished entries, and clients accept its answers", "statement": "The server answers an OwnerInit request exactly when the starting position is a distinguished log entry that has not expired. The client whose state is behind accepts the answer; the tree head is that of the log, what the client retains of the log is right, and the owner state is the greatest version of the label at the starting position.", "quantifier": "for all executions of the server, all labels that were not removed, all starting positions, all earlier client states, all times within the window, with and without an auditor", "why_tests_cant": "tests of the client use no server; the answer depends on the whole history of the label and of the timestamps", "anchors": ["tree/transparency/monitor.go: Tree.OwnerInit, Tree.startMonitor, Tree.getBinaryLadder", "tree/transparency/client.go: Client.OwnerInit", "tree/transparency/algorithms/monitor.go: Monitor.OwnerInit"]}
{"id": "C76", "title": "A label that was removed can be looked up again", "statement": "After a label has been removed, the answers of the server to searches for it are verified by the client: that it has no versions, or, if it has been added again, its new versions and values.", "quantifier": "for all executions of the server in which labels are removed, and possibly added again; all versions, client states and times", "why_tests_cant": "needs a history with a removal after which an earlier log entry is still on the search path; the tests remove labels only to look at the database", "anchors": ["tree/transparency/mutate.go: Tree.mutateLabel", "tree/transparency/transparency.go: Tree.Search", "tree/transparency/algorithms/proof_handle.go: ProducedProofHandle.GetSearchBinaryLadder, ProducedProofHandle.Output"]}
{"id": "C77", "title": "Signatures survive their encoding", "statement": "A signature made with a P-256 signing key has 64 bytes whatever the size of its two numbers, is verified as the same two numbers, and is therefore accepted for the message that was signed; strings of another length are refused, no two strings stand for the same pair of numbers, and neither signing nor verifying with a parsed key panics.", "quantifier": "for all messages, keys and pairs of numbers that ECDSA can return", "why_tests_cant": "the padding matters only for numbers with leading zero bytes, one in 256 signatures; tests with random signatures rarely see two short numbers at once", "anchors": ["crypto/suites/kt_sha256_p256.go: p256PrivateKey.Sign, p256PublicKey.Verify", "crypto/suites/kt_sha256_ed25519.go: ParseSigningPublicKey, ed25519PublicKey.Verify"]}
{"id": "C78", "title": "Every VRF key pair is accepted", "statement": "The private keys that are generated are accepted as private keys, and the encoded public key of every accepted private key is accepted as a public key and stands for the same point; public keys that would make every output predictable (the point at infinity, points of small order) are refused.", "quantifier": "for all private keys and all encodings of points", "why_tests_cant": "the refused points and the range of the private keys are a negligible part of all strings", "anchors": ["crypto/vrf/p256/p256.go: GeneratePrivateKey, NewPrivateKey, NewPublicKey", "crypto/vrf/edwards25519/edwards25519.go: NewPrivateKey, NewPublicKey"]}
{"id": "C79", "title": "One tree head, one answer", "statement": "If two clients verify answers to the same search (the same label, and the same version or none) against the same tree head, and both accept, then they accept the same version, at the same log entry, with the same commitment and the same value. This holds whatever the tree head commits to: the server that made it need not be honest, versions may be missing from log entries or vanish again, and timestamps may decrease. Otherwise two of the strings hashed collide.", "quantifier": "for all logs whatever, all pairs of responses, all client states that are right for the log, all times", "why_tests_cant": "quantifies over all logs that a malicious server can sign, and over pairs of responses; tests have one honest server", "anchors": ["tree/transparency/client.go: Client.search", "tree/transparency/algorithms/search.go: GreatestVersionSearch, FixedVersionSearch", "tree/transparency/algorithms/proof_handle.go: ReceivedProofHandle", "tree/transparency/math/ladders.go: InterpretSearchLadder", "tree/prefix/verify.go: evaluate"]}
{"id": "C80", "title": "Readers do not see changes made while they work", "statement": "A Tree opened for reading answers searches and monitoring requests for the tree head it was opened with. What it answers does not depend on changes that another Tree commits while the request is being processed, whichever of the keys it reads before and which after these changes: the response is the one it would have given before them.", "quantifier": "for all executions of the server, all further executions that run concurrently, all choices of the moment at which each key of the database is read, all requests", "why_tests_cant": "depends on the interleaving of a reader with a writer; the tests have one goroutine", "anchors": ["db/leveldb.go: ldbTransparencyStore.Clone", "tree/transparency/transparency.go: NewTree, Tree.Search", "tree/transparency/crypto.go: Tree.batchGetIndex, Tree.getVersion", "tree/transparency/monitor.go: Tree.ContactMonitor, Tree.OwnerInit, Tree.OwnerMonitor"]}
{"id": "C81", "title": "The stream of update responses ends properly", "statement": "The channel returned by Update carries responses and then at most one error, and is then closed. The request reaches the sequencer at most once, unchanged, and only after the user has received responses for all versions that existed when the update was requested. Every execution ends; the goroutine never waits for anything but the user or the sequencer, and once the context is cancelled it ends by itself and submits nothing more. Unless the user cancels, every message is received, in order.", "quantifier": "for all interleavings with the user, the sequencer, the clock and changes to the database; all requests, states of the tree and replies of the sequencer", "why_tests_cant": "quantifies over interleavings and over cancellation at any moment; there is no test of Update at all", "anchors": ["tree/transparency/update.go: updater.process, updater.send, updater.next, updater.reloadTree", "tree/transparency/transparency.go: UpdateRequest"]}
{"id": "C82", "title": "A change can be repeated after a crash", "statement": "If the server's process ends while a change is being committed, then after a restart every request is answered as it would have been before the change, or as it would have been after it. A change of which the tree head was not written can simply be made again: the versions it adds then become part of the log, can be looked up, and can be removed later.", "quantifier": "for all executions of the server up to the crash, all changes, all points of the commit at which the process ends, all requests, and all changes made after the restart", "why_tests_cant": "requires a crash between two particular writes, followed by a restart and further changes; the tests never restart a server after a crash", "anchors": ["db/leveldb.go: ldbConn.Commit", "tree/transparency/transparency.go: NewTree, Tree.Search", "tree/transparency/mutate.go: Tree.Mutate, Tree.mutateLabel, Tree.issueTreeHead"]}
{"id": "C83", "title": "Operations of a monitor change nothing but the monitor", "statement": "Contact monitoring, the initialization of an owner, owner monitoring and the verification of an update either succeed, and then the monitor's states are the ones that the algorithm computes, or fail, and then every state, slice and map in memory is as it was and the monitor refers to the same states. What other owner and contact states say is not changed, also if they were made from the monitor's states (Struct) or the monitor's states from them (NewOwnerState), and monitors made from the same state are independent of each other.", "quantifier": "for all contents of memory, all sharing of arrays between slices, all providers, all runs", "why_tests_cant": "depends on which slices share an array and how much spare capacity it has; tests compare the final states of one monitor", "anchors": ["tree/transparency/algorithms/monitor.go: OwnerState, ContactState, Monitor.ContactMonitor, Monitor.OwnerInit, Monitor.OwnerMonitor", "tree/transparency/algorithms/update.go: Monitor.Update"]}
{"id": "C84", "title": "Every answer of the server can be sent", "statement": "Every response that the server computes, to a search or to a monitoring request, can be encoded: none of its lists is longer than the count in front of it can express, however large the log is, however many versions the label has, and whatever the request asks for. The client decodes the encoding to the same response.", "quantifier": "for all executions of the server, all requests that decode, all times, all hash functions", "why_tests_cant": "an encoding fails only for lists of more than 255 elements, which needs logs with hundreds of entries and maps with dozens of versions; the tests use small trees", "anchors": ["tree/transparency/transparency.go: Tree.Search", "tree/transparency/monitor.go: Tree.ContactMonitor", "tree/transparency/structs/proofs.go: CombinedTreeProof.Marshal", "tree/transparency/structs/operations.go: SearchResponse.Marshal, ContactMonitorResponse.Marshal", "tree/transparency/algorithms/search.go: GreatestVersionSearch, FixedVersionSearch"]}
{"id": "C85", "title": "The server makes exactly the acceptable changes", "statement": "A call of Mutate with well-formed arguments succeeds if and only if its time is not before that of the previous change, every label and value can be encoded, every version of a label to be removed was added no later than in a distinguished log entry, and no two versions share a VRF output. It then extends the log by one entry. Otherwise it returns an error and commits nothing; it does not panic, and no other reason for refusing a change exists, whatever was added and removed before, in whatever order.", "quantifier": "for all executions of the server, all further changes, all orders of processing the labels, all hash functions and VRFs", "why_tests_cant": "that no history of additions, removals and restarts makes a server refuse a valid change is a statement about all reachable databases; tests make a few changes in a row", "anchors": ["tree/transparency/mutate.go: Tree.Mutate, Tree.mutateLabel, Tree.issueTreeHead", "tree/prefix/prefix.go: Tree.Mutate", "tree/transparency/algorithms/algorithms.go: PreviousRightmost"]}
{"id": "C86", "title": "Answers about a label do not reveal other labels", "statement": "What the server answers to a request about a label - a search, a monitoring request of a contact or of the owner, an initialization, an update - is determined by the versions of that label and by what the server has published to auditors: the VRF outputs and commitments added and removed in each log entry, and the times. Names, values and openings of other labels have no influence on it, nor on whether the request is refused and with which error.", "quantifier": "for all pairs of executions of the server, all requests, all times, all hash functions, VRFs and signature functions", "why_tests_cant": "non-interference is a statement about pairs of executions; a test sees one execution at a time", "anchors": ["tree/transparency/transparency.go: Tree.Search", "tree/transparency/monitor.go: Tree.ContactMonitor, Tree.OwnerInit, Tree.OwnerMonitor", "tree/transparency/update.go: Tree.Update, Tree.ManagerUpdate", "tree/transparency/mutate.go: Tree.Mutate", "tree/transparency/crypto.go: Tree.getVersion, Tree.batchGetIndex"]}
{"id": "C87", "title": "No response makes a client crash or hang", "statement": "Whatever bytes a client receives as the response to a search, to the initialization of an owner, to a monitoring request or to an update, decoding and verifying them ends: the client's state is updated or an error is returned. It neither panics nor runs forever.", "quantifier": "All byte strings received; all client states of a non-empty tree, all stored label states with positions inside that tree, all labels, all times, all configurations accepted by NewClient, all hash functions of at least 32 bytes and all VRF keys whose Verify returns.", "why_tests_cant": "The responses are chosen by an adversary; fuzzing samples byte strings, and hardly any of them pass the first length fields. That no byte string at all makes the verification index past the end of a list, follow a nil pointer or loop is a statement about all of them.", "anchors": ["tree/transparency/client.go:147-233 (search), 266-317 (ownerInit), 372-414 (contactMonitor), 421-478 (ownerMonitor), 511-612 (StreamVerifier.Verify)", "tree/transparency/client_crypto.go:29-134", "tree/transparency/math/ladders.go:9-60", "tree/transparency/structs/operations.go"]}
{"id": "C88", "title": "The in-memory database behaves like the LevelDB database", "statement": "For every sequence of calls on a store and on clones of it, the in-memory implementation of the database interface returns what the LevelDB implementation returns: the same values, the same absences, the same refusals. So what is tested on the in-memory database holds for the one that is deployed.", "quantifier": "for all sequences of calls of all methods of the interface, all arguments, all numbers of clones, from empty databases", "why_tests_cant": "the tests run on the in-memory database, so they cannot see where it differs from the deployed one; the differences need a clone that is used after later writes", "anchors": ["db/memory/memory.go: TransparencyStore, LogStore, PrefixStore", "db/leveldb.go: ldbTransparencyStore, ldbLogStore, ldbPrefixStore, ldbConn", "db/db.go: TransparencyStore", "tree/transparency/update.go: updater.reloadTree"]}
{"id": "C89", "title": "A manager accepts exactly what its service operator signed", "statement": "In third-party management, a service operator can only be set up with the key that is in the configuration. Everything that it submits over any sequence of update requests is accepted by the manager. The manager accepts a submission exactly if every value carries a valid signature of the operator for the label, for the version that results from its place in the submission, and for the value; otherwise it returns an error.", "quantifier": "for all sequences of update requests to the operator, all executions of the manager, all submissions, all signature schemes", "why_tests_cant": "the two programs run at different parties, and the tests exercise them with the same few requests; that no sequence of batches leads to a refused signature, and that no other submission is accepted, are statements about all of them", "anchors": ["tree/transparency/managed/managed.go: NewManagedLog, ManagedLog.Update", "tree/transparency/update.go: updater.setManagerRequest"]}
{"id": "C90", "title": "Decoding reserves memory in proportion to the message", "statement": "Decoding a received request, response or auditor update of n bytes asks for at most a fixed multiple of n bytes of memory plus a small constant, whether or not the message is well formed: a length field that promises more than the message contains does not make the receiver reserve what it promises.", "quantifier": "for every byte string received as a message of any kind, every configuration and every cipher suite", "why_tests_cant": "Memory that is reserved and then given back because the message turned out to be short is not visible in the result of the decoder, and tests decode well-formed messages.", "anchors": ["tree/transparency/structs/structs.go:89-99", "tree/transparency/structs/structs.go:110-185", "tree/prefix/proof.go:24-52", "tree/transparency/structs/crypto.go:37-47", "tree/transparency/structs/operations.go:348-410"]}
{"id": "C91", "title": "Searching several versions of the prefix tree at once gives the answers of separate searches", "statement": "A call of Search on the prefix tree with any list of versions and VRF outputs returns, for each of them, exactly the proof and the commitments that a search of that version on its own tree gives: nodes that are in memory once and belong to several versions do not carry anything from one version into the answer about another, and the order in which Go iterates over maps has no influence. No tile is requested from the database twice. The same holds for the tree that Mutate loads before it changes it. A list with version 0, with a VRF output of the wrong length, or with a search in a version that does not exist is refused with an error.", "quantifier": "for all histories of the prefix tree, all lists of searches (any versions, repetitions, empty lists), all orders of map iteration, all hash functions", "why_tests_cant": "the interference needs tiles that several versions share, searches that meet in them at different depths and in different rounds, and a particular random order of map iteration; a test run sees one order", "anchors": ["tree/prefix/batch.go: cursor.step, batch.initialize, batch.get, batch.search", "tree/prefix/prefix.go: Tree.Search, Tree.Mutate, Tree.getMutationRoot"]}
{"id": "C92", "title": "VRF nonces are those of the RFCs, and are not used twice", "statement": "The nonce of a P-256 VRF proof is the one RFC 6979 derives from the private key and the encoded point (as RFC 9381 prescribes): it is between 1 and the group order minus 1, it is the first acceptable candidate, and the derivation only gives up after 256 unacceptable ones. The nonce of an edwards25519 VRF proof is the SHA-512 digest of the second half of the hashed key and of the encoded point, reduced by the group order. Two different keys or points never get the same nonce, unless two different strings that were hashed in the derivation have the same SHA-256 digest, or for edwards25519 the same SHA-512 digest modulo the group order or the same second half of it.", "quantifier": "for all private keys, points, and behaviours of the hash function", "why_tests_cant": "A rejected candidate has probability 2^-32 and so has a digest beyond the group order; no test with real keys reaches either. Reuse of a nonce reveals the private key but no test would notice it.", "anchors": ["crypto/vrf/p256/p256.go: mac, generateNonce", "crypto/vrf/edwards25519/edwards25519.go: generateNonce, NewPrivateKey"]}
{"id": "C93", "title": "Monitoring gets around to every label", "statement": "After an accepted answer to a monitoring request, an owner initialization or a search, Client.Monitor does not recommend the same label again until there is a new distinguished log entry; it returns nil once every label is up to date; and so a label that is due is recommended after finitely many accepted answers, whichever of the due labels the database chooses to return. In particular a label that the client owns can be monitored and updated.", "quantifier": "for all stored states, labels and accepted answers, all sequences of such answers, and all databases that do what db.ClientStore documents", "why_tests_cant": "A test calls Monitor once and checks the request; that the label comes back at once, or that a database may legitimately return it every time, shows only over sequences of calls with several labels", "anchors": ["tree/transparency/client.go:67-87", "tree/transparency/client.go:207-231", "tree/transparency/client.go:266-317", "tree/transparency/client.go:318-365", "tree/transparency/client.go:372-414", "tree/transparency/client.go:422-460", "db/db.go:75-89"]}
{"id": "C94", "title": "What the client of a POST request is told matches what happened", "statement": "If POST /v1/account answers with the new tree root, then Insert was called for this very request, once, and returned that root; if it answers with an error of Insert, Insert returned that error; if it answers that submitting timed out, the value is not inserted, neither before nor after. Values are inserted one after the other. No slow or vanished handler holds up the inserter. A value that was inserted before the five seconds are over is acknowledged. A body of 1 to 16384 bytes is taken as it is, every other one is refused.", "quantifier": "for all numbers of concurrent requests, all interleavings of handlers, timers and the inserter, all trees and all ways in which the body arrives in pieces", "why_tests_cant": "The outcome depends on which goroutine reaches its select first; a test on an idle machine practically always sees the order in which all is well", "anchors": ["cmd/katie-server/handler.go:177-218", "cmd/katie-server/inserter.go:24-41", "cmd/katie-server/main.go:51-53"]}
{"id": "C95", "title": "Clients that accept heads of the same auditor have the same log, as far as it was audited", "statement": "Let an auditor be restarted only when the heads it has returned are all covered by what its database holds, for example because it is restarted whenever Commit fails. There is one history, in which every log entry follows from the one before by the changes that the auditor was shown, such that the log of every client whose checks of a tree head and an auditor's head pass begins with that history, up to the size given in the auditor's head; the last entry of that part has the timestamp of the head. So the logs of two such clients agree up to the smaller of the two auditors' heads, whatever the server showed to each of them. Otherwise an auditor's signature was forged or two strings that were hashed collide.", "quantifier": "for all executions of the auditor, all servers, all numbers of clients and kinds of requests, all hash and signature functions", "why_tests_cant": "A server that shows different logs to different clients is consistent with each of them; the claim relates several programs, and holds against every behaviour of the server", "anchors": ["tree/transparency/auditor/auditor.go: Auditor.Process, Auditor.Commit, NewAuditor", "tree/transparency/client_crypto.go: verifier.verifyTreeHead, verifier.updateView", "tree/transparency/algorithms/data_provider.go: DataProvider.Finish", "tree/transparency/structs/tree_head.go"]}
{"id": "C96", "title": "Request metrics do not contain account names; a consistency proof is added exactly when asked for", "statement": "The label under which the server program counts an API request is one of /v1/meta, /v1/consistency, /v1/account and POST:/v1/account, and is the same for all accounts and tree sizes; so the metrics reveal no account and the number of time series is bounded. A request for an account with a tree size in its path gets a consistency proof from that size (or an error if the number does not fit), a request without one gets none: no size in a path is taken for a missing one.", "quantifier": "for all request paths that the router passes on, all methods, accounts and numbers", "why_tests_cant": "Account names are arbitrary strings of any length and character set; a test has a few of them and looks at the response, not at the metrics", "anchors": ["cmd/katie-server/handler.go:39-76", "cmd/katie-server/handler.go:160-171", "cmd/katie-server/handler.go:221-231", "cmd/katie-server/main.go:56-62"]}
{"id": "C97", "title": "In an audited log a version of a label has one value", "statement": "If two clients, each of which checks the answer to a search against a tree head with an auditor's head of the same auditor, accept values for the same version of the same label, found at log entries that the auditors' heads cover, then both accept the same commitment, and so the same value, unless the updates between the two entries that the auditor was shown list the removal of that version. This holds whatever the server does: neither the server nor the two clients' tree sizes, requests or previous states matter. Otherwise an auditor's signature was forged, two strings that were hashed collide, or the VRF proved two outputs for one input.", "quantifier": "for all executions of the auditor (restarted when a commit fails), all servers, all labels, versions, values, log sizes and kinds of searches, all hash, signature and VRF functions", "why_tests_cant": "The claim quantifies over everything a malicious server may send to two clients and an auditor, over any number of updates between the two entries", "anchors": ["tree/transparency/auditor/auditor.go: Auditor.Process, Auditor.Commit", "tree/prefix/verify.go: Evaluate, EvaluateBeforeAfter", "tree/transparency/client_crypto.go: verifier.verifyTreeHead, verifier.processLadder, computeCommitment", "tree/transparency/algorithms/search.go", "tree/transparency/client.go: Client.search"]}
{"id": "C98", "title": "Nothing changes in an audited log without being listed to the auditor", "statement": "In the log of every client that accepts a head of an auditor, as far as the auditor has audited it, the prefix tree of a log entry contains exactly the pairs of VRF output and commitment that follow from those of any earlier entry by the updates shown to the auditor: a pair is there if and only if it was there before or an update has added it, and no later update has removed it. This holds whatever the server sent as proofs. Otherwise an auditor's signature was forged or two strings that were hashed collide.", "quantifier": "for all executions of the auditor (restarted when a commit fails), all updates and proofs, all servers, logs, clients and pairs of entries, all hash functions", "why_tests_cant": "A server that changes more than it lists must find a proof that leads from one root to the other; a test tries the proofs that its author thinks of", "anchors": ["tree/prefix/verify.go: EvaluateBeforeAfter", "tree/prefix/prefix.go:258-335", "tree/transparency/auditor/auditor.go: Auditor.Process, Auditor.Commit", "tree/transparency/client_crypto.go: verifier.verifyTreeHead"]}
{"id": "C99", "title": "Every value that a client accepts was shown to the auditor", "statement": "If a client accepts a value for a version of a label in the answer to a search, at a log entry that the auditor's head covers, then the commitment to this label, version and value was in the first log entry or an update that the auditor has accepted lists it as added, under the VRF output of the label and version; and no later update up to that entry lists it as removed. So a server can not show a value to one client without the auditor (and whoever reads the updates) having been shown its commitment. Otherwise a signature was forged, or two strings that were hashed collide.", "quantifier": "for all executions of the auditor, all servers, labels, versions, values and kinds of searches, all hash, signature and VRF functions", "why_tests_cant": "The claim is about all that a malicious server may send to a client and an auditor, over any number of updates", "anchors": ["tree/transparency/auditor/auditor.go: Auditor.Process, Auditor.Commit", "tree/prefix/verify.go: Evaluate, EvaluateBeforeAfter", "tree/transparency/client_crypto.go: verifier.verifyTreeHead, computeCommitment", "tree/transparency/algorithms/search.go", "tree/transparency/client.go: Client.search"]}
{"id": "C100", "title": "The VRF hashes what RFC 9381 prescribes, and nothing it hashes can be mistaken for anything else", "statement": "The point that stands for an input is the one that the try-and-increment method of RFC 9381 gives; the challenge is the truncated hash of public key, hashed input, claimed output and the two commitments; the output is the hash of the claimed output point times the cofactor. What is hashed determines the cipher suite, the purpose, and all the values it is made from, so a challenge can not be reused for another key, input or claimed output, and accepted proofs with different output points have different outputs, for whatever keys and inputs, unless two different strings have the same (truncated) hash.", "quantifier": "for all keys, inputs, proofs, and behaviours of the hash function and of the curve", "why_tests_cant": "A missing point in the challenge makes proofs forgeable but every honest proof still verifies; test vectors would notice it, but none with random keys does", "anchors": ["crypto/vrf/p256/p256.go:17-50", "crypto/vrf/p256/p256.go:115-143", "crypto/vrf/p256/p256.go:242-305", "crypto/vrf/edwards25519/edwards25519.go:15-46", "crypto/vrf/edwards25519/edwards25519.go:60-92", "crypto/vrf/edwards25519/edwards25519.go:175-217"]}
{"id": "C101", "title": "The keys that generate-keys prints work together", "statement": "A run of generate-keys that ends successfully prints a private and a public signing key and a private and a public VRF key, in this order and labelled as such, in hexadecimal. Decoded, the private keys are accepted by the cipher suite's parsers; the public signing key belongs to the private one; the public VRF key is accepted and is the one of the private VRF key, so that all outputs and proofs made with the one verify with the other (P-256: but for a proof whose scalar is zero). A generated VRF key is never refused. A run that does not succeed has printed fewer than four lines.", "quantifier": "for all random strings drawn, both cipher suites, all arguments of the program, all inputs of the VRF", "why_tests_cant": "For Ed25519 the public VRF key is computed by crypto/ed25519 and used by the VRF package; that they agree for every seed can not be tested, nor can the strings that have to be drawn again, which have probability 2^-32", "anchors": ["cmd/generate-keys/main.go:16-76", "crypto/vrf/p256/p256.go:150-180", "crypto/vrf/p256/p256.go:220-240", "crypto/vrf/edwards25519/edwards25519.go:106-173", "crypto/suites/kt_sha256_ed25519.go:33-53"]}
{"id": "C102", "title": "In an audited log nobody is given an old version as the newest one", "statement": "If a client has found version t of a label, with a search of either kind, at a log entry that its auditor's head covers, and another client (or the same one) later accepts the answer that t' is the greatest version of the label, in a log that contains that entry and is covered to its end by a head of the same auditor, then t' is at least t, unless an update shown to the auditor lists the removal of a version of the label. So two clients with logs of the same size are told the same version. This holds whatever the server does and whatever versions it has put into the log: there may be gaps, and the clients may have been shown different logs. Otherwise an auditor's signature was forged, two strings that were hashed collide, or the VRF proved two outputs for one input.", "quantifier": "for all executions of the auditor (restarted when a commit fails), all servers, labels, versions, log sizes and kinds of searches, all hash, signature and VRF functions", "why_tests_cant": "The answer that hides a version is consistent in itself; the claim relates what two clients have seen, over any number of updates, and holds for every log that a malicious server may construct", "anchors": ["tree/transparency/algorithms/search.go: GreatestVersionSearch, FixedVersionSearch", "tree/transparency/math/ladders.go", "tree/transparency/auditor/auditor.go: Auditor.Process, Auditor.Commit", "tree/prefix/verify.go: Evaluate, EvaluateBeforeAfter", "tree/transparency/client_crypto.go: verifier.verifyTreeHead, verifier.processLadder", "tree/transparency/client.go: Client.search"]}
{"id": "C103", "title": "In an audited log an owner learns of every version that anyone has found", "statement": "If a client has found version t of a label, with a search of either kind, at a log entry that its auditor's head covers, and the monitoring of the owner of the label arrives at a new log entry, which is not left of that one and which is covered by a head of the same auditor, then the version that the owner takes for the greatest one is at least t, unless an update shown to the auditor lists the removal of a version of the label. The same holds for the version and the log entry with which a new owner starts. So nobody has accepted a version that the owner does not know of, whatever the server does, and even if the client and the owner have been shown different logs. Otherwise an auditor's signature was forged, two strings that were hashed collide, or the VRF proved two outputs for one input.", "quantifier": "for all executions of the auditor (restarted when a commit fails), all servers, labels, versions, log sizes, owner states and kinds of searches, all hash, signature and VRF functions", "why_tests_cant": "A test has one server and one log; the claim relates what a client and the owner have seen in possibly different logs, over any number of updates, for every log that a malicious server may construct", "anchors": ["tree/transparency/algorithms/monitor.go: Monitor.OwnerMonitor, Monitor.ownerMonitor, Monitor.OwnerInit", "tree/transparency/algorithms/search.go: GreatestVersionSearch, FixedVersionSearch", "tree/transparency/client.go: Client.ownerMonitor, Client.ownerInit, Client.search", "tree/transparency/auditor/auditor.go: Auditor.Process, Auditor.Commit", "tree/prefix/verify.go: Evaluate, EvaluateBeforeAfter"]}
{"id": "C104", "title": "In an audited log a client finds the value that the owner has", "statement": "If the monitoring of the owner of a label arrives at a new log entry, which is covered by its auditor's head, and the owner takes version k for the greatest one there, and a client finds version k, or a smaller version that is in the binary ladder for k, with a search of either kind, at an entry that is covered by a head of the same auditor, then the commitment that the client was shown is one that the owner has retained for that version; so if the owner knows only its own value for that version, the client has accepted exactly this value. A new owner, who starts with version k, is given the same commitments for these versions as the client. This holds if no update shown to the auditor lists the removal of the version between the two entries, whichever of them is the earlier one, whatever the server does, and even if the client and the owner have been shown different logs. Otherwise an auditor's signature was forged, two strings that were hashed collide, or the VRF proved two outputs for one input.", "quantifier": "for all executions of the auditor (restarted when a commit fails), all servers, labels, versions, values, log sizes, owner states and kinds of searches, all hash, signature and VRF functions", "why_tests_cant": "The value that a malicious server shows to somebody else is not seen in a test of the owner; the claim relates what a client and the owner have seen in possibly different logs, over any number of updates", "anchors": ["tree/transparency/algorithms/monitor.go: Monitor.OwnerMonitor, Monitor.ownerMonitor, Monitor.OwnerInit", "tree/transparency/algorithms/search.go: GreatestVersionSearch, FixedVersionSearch", "tree/transparency/client.go: Client.ownerMonitor, Client.ownerInit, Client.search", "tree/transparency/client_crypto.go: computeCommitment, verifier.addLabelState", "tree/transparency/auditor/auditor.go: Auditor.Process, Auditor.Commit", "tree/prefix/verify.go: Evaluate, EvaluateBeforeAfter"]}
{"id": "C105", "title": "In an audited log the owners of a label agree about its versions and values", "statement": "If two owners of a label (two devices, or an old and a new owner), after their monitoring has moved to a new log entry or after they have become owners, are at log entries that are covered by heads of the same auditor, and the first takes version k for the greatest one in its entry, and the second one's entry is not left of it, then the second takes version k or a greater one for the greatest; and if the two are at the same entry, they have the same greatest version. For each version in the binary ladders of both (these include the greatest version, if it is the same), they have the same commitment. This holds if no update shown to the auditor lists the removal of a version of the label, whatever the server does, and even if the owners have been shown different logs. Otherwise an auditor's signature was forged, two strings that were hashed collide, or the VRF proved two outputs for one input.", "quantifier": "for all executions of the auditor (restarted when a commit fails), all servers, labels, versions below 2^32, log sizes and owner states, all hash, signature and VRF functions", "why_tests_cant": "A test has one server that shows one log; the claim relates what two owners have seen in possibly different logs, which a malicious server has constructed, over any number of updates", "anchors": ["tree/transparency/algorithms/monitor.go: Monitor.OwnerMonitor, Monitor.ownerMonitor, Monitor.OwnerInit", "tree/transparency/client.go: Client.ownerMonitor, Client.ownerInit", "tree/transparency/auditor/auditor.go: Auditor.Process, Auditor.Commit", "tree/prefix/verify.go: Evaluate, EvaluateBeforeAfter"]}
{"id": "C106", "title": "In an audited log nobody is given a version older than the one the owner knows of", "statement": "If the owner of a label, after its monitoring has moved to a new log entry or after it has become the owner, takes version k for the greatest one in its entry, which is covered by its auditor's head, and a client accepts the answer that t is the greatest version of the label, in a log that has an entry in that position and is covered to its end by a head of the same auditor, then t is at least k; and if the owner is at the last entry of the client's log, t is k, and the commitment to the value that the client accepts is one that the owner has for this version. This holds if no update shown to the auditor lists the removal of a version of the label, whatever the server does, and even if the client and the owner have been shown different logs. Otherwise an auditor's signature was forged, two strings that were hashed collide, or the VRF proved two outputs for one input.", "quantifier": "for all executions of the auditor (restarted when a commit fails), all servers, labels, versions below 2^32, log sizes, owner states and clients, all hash, signature and VRF functions", "why_tests_cant": "The stale answer is consistent in itself; the claim relates what a client and the owner have seen in possibly different logs, over any number of updates, for every log that a malicious server may construct", "anchors": ["tree/transparency/algorithms/monitor.go: Monitor.OwnerMonitor, Monitor.ownerMonitor, Monitor.OwnerInit", "tree/transparency/algorithms/search.go: GreatestVersionSearch", "tree/transparency/math/ladders.go", "tree/transparency/client.go: Client.ownerMonitor, Client.ownerInit, Client.search", "tree/transparency/auditor/auditor.go: Auditor.Process, Auditor.Commit", "tree/prefix/verify.go: Evaluate, EvaluateBeforeAfter"]}
