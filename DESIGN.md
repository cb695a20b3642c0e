# Formal verification of katie in Lean 4

Source under study: `/repo` (Go, the repository Bren2010/katie at a pinned commit). Nothing in `/repo` is
built or run; it is read as text. The model, the specifications and the proofs are in `lean/Verif/`.

## Layout

* `Verif/Model/*.lean` - the model of the Go code, function by function. Every definition cites the file
  and lines it models and says where it is simplified.
* `Verif/Spec/*.lean` - small specifications, independent of the model's helpers (recursive Merkle tree hash,
  hash of a compressed trie over a finite map, "distinguished" as a recursive predicate, the log that a tree
  head commits to, executions of server, client and auditor, ...).
* `Verif/Lemmas/*.lean` - proof machinery.
* `Verif/Props/*.lean` - the property theorems, each next to an `example` (or a theorem with a witness) that
  shows a concrete non-trivial case meeting its hypotheses.

`properties.jsonl` has the properties in English, `MANIFEST.json` says which theorems prove which property,
`seeded/LOG.jsonl` lists the wrong programs against which the theorems were tested.

Naming: `C12_...` proves property C12. The suffix `_partial` means that only part of the English property is
proved. Where the code does not have the property, a theorem without that suffix proves the negation with a
concrete witness (or for all inputs of a class), see "Disagreements" below.

## Trusted base

* Lean's kernel (4.33.0), and the axioms `propext`, `Classical.choice`, `Quot.sound`. There is no `sorry`, no
  axiom of our own, no `native_decide`, no `bv_decide`, no `implemented_by`, no `unsafe`. `decide +kernel` is used
  for concrete cases and witnesses; it asks the kernel itself to compute and adds no axiom.
* Mathlib, as a library of checked proofs (it is not trusted beyond the kernel).
* The correspondence between the Go text and the Lean definitions, by reading. The citations in the comments
  are there so that each definition can be compared with the code.
* For the cryptography: see "Not modelled".

## Modelling conventions

* A Go call that may fail is a value of `G a := Except Fault a`, where a `Fault` is an error (`err`), a panic
  (`panic`) or a loop that does not end (`diverge`). Panics (nil dereference, index out of range, explicit
  `panic`) and endless loops are outcomes of the model, not undefined. Loops are structural recursions with fuel;
  where the code's loop ends the fuel suffices (proved), where it does not end `diverge` is reached for any fuel.
* A call that changes something and may fail returns the state also on failure (`St`), because Go does not undo
  what was done before an error. Database transactions, auditor, server tree and data provider are state machines.
* nil pointers and, where the code tells them from empty ones, nil slices are `Option`.
* Numbers are `Nat` with the same operators as the code (`^^^`, `>>>`, `&&&`, `|||`). Where a Go operation can wrap
  around and the code reaches that case, the model computes modulo 2^32 or 2^64: ladder arithmetic (`uint32`),
  `n-1` in the search tree, time differences, encodings (which keep the low-order bytes).
  `Props/LogMath64` proves that the node arithmetic of the log tree stays below 2^64 for trees up to `MaxTreeSize`.
* Go maps are association lists. Where the iteration order can be observed it is an argument of the model
  (order of labels in `Mutate`, order in `simplifyMonitoringMap`); elsewhere the lists are used as functions or sets.
* Time, random openings, choices of the database are arguments.
* The algorithms of `tree/transparency/algorithms` talk to a data provider. They are programs in a free monad
  (`Prog`): a tree of requests with a continuation for every answer. The same program is run by the server, which
  produces a proof, by the client, which consumes one, and by theorems about arbitrary providers.

## Hash functions

Hashes are arbitrary functions on byte strings with outputs of a fixed length (`Log.Suite`, `Suite.Good`). No
theorem assumes that a hash has no collisions. Security theorems say "the conclusion holds, or two explicitly
given strings collide": one string is hashed by the honest computation, the other by the verifier, and the two lists
of candidates are spelled out (`LogSpec.Collides`, `Props.Broken`, `CommittedSpec.HashBroken`). The prefix tree encodes an
empty subtree by an all-zero digest, so a string that hashes to all zeroes is the third alternative (`ZeroDigest`).

## What is modelled

| code | model |
|------|-------|
| `tree/log/math/math.go` | `Model/LogMath` |
| `tree/log/log.go`, `verify.go` (stateless part) | `Model/Log` |
| `tree/log/chunk.go`, stored log in `log.go` | `Model/LogStore` |
| `tree/prefix/*.go` (nodes, prefix, batch, verify) | `Model/Prefix` |
| `tree/prefix/batch.go` with pointers, shared nodes and map order | `Model/PrefixHeap` |
| `tree/prefix/proof.go` (wire format) | `Model/Structs` |
| `tree/transparency/math/*.go` | `Model/SearchTree`, `Model/Ladder` |
| `tree/transparency/algorithms/{algorithms,search,monitor,update}.go` | `Model/Algorithms`, `Model/Prog` |
| the same monitor with its memory (pointers, slices that share arrays, maps): `monitor.go`, `update.go` | `Model/MonitorHeap` |
| `.../algorithms/data_provider.go`, `proof_handle.go` | `Model/Provider`, `Model/Handles` |
| `tree/transparency/{transparency,crypto,mutate}.go` | `Model/Server` |
| request handlers in `transparency.go`, `monitor.go`, `update.go` | `Model/ServerOps` |
| the goroutine started by `Update` (`update.go` `process`, `send`, `reloadTree`) as a state machine | `Model/UpdateProc` |
| `tree/transparency/{client,client_crypto}.go` | `Model/Client` |
| `tree/transparency/auditor/*.go` | `Model/Auditor` |
| `tree/transparency/managed/managed.go` and its memory store | `Model/Managed` |
| `tree/transparency/structs/*.go` | `Model/Codec`, `Model/Structs`, `Model/Config` |
| memory reserved by the decoders in `structs/*.go`, `tree/prefix/proof.go` | `Model/Alloc` |
| `db/leveldb.go` | `Model/DB` |
| `db/memory/memory.go` (and `db/leveldb.go` with keys and clones) | `Model/Memory` |
| `crypto/commitments` (with HMAC) | `Model/Commitment` |
| `crypto/vrf/p256`, `crypto/vrf/edwards25519` (over an abstract group) | `Model/VRF`, `Model/Suites`, `Model/Nonce` |
| `crypto/suites` (encoding of signatures, lengths of keys) | `Model/Suites` |
| `cmd/katie-server`: POST branch of `Account` in `handler.go`, `inserter.go`, as a state machine | `Model/CmdServer` |
| `cmd/katie-server`: `extractPath` and the parameter `last` in `handler.go`, routes of `main.go` | `Model/CmdRoutes` |
| `cmd/generate-keys/main.go` | `Model/GenerateKeys` |

Simplifications are listed at the head of each model file. The important ones: LevelDB is a map with atomic batch
writes and atomic single writes, and reads fail only by a missing key; tables of the database are separate (that
their keys do not clash is C39); the goroutine of `Update` is the list of messages it sends (in `Model/UpdateProc` it is a state machine of its own, with channels and cancellation); the client's store (an
interface without implementation in the repository) does what its comments say; `parentNode.hash` caching is modelled
only where a stale cache could be observed; `batch.search` fetches tiles in rounds, `Model/Prefix` in one descent (`Model/PrefixHeap` in rounds, with shared memory; C91: the outcome is the same).

## Not modelled

the rest of `cmd/` (the server program is excluded from the build by `//go:build ignore`), `tree/transparency/test`, the parsing
of P-256 signing keys by `crypto/ecdsa`, elliptic-curve arithmetic and hash-to-curve, SHA-256/SHA-512, signature schemes (signing
and verifying are arbitrary functions), LevelDB internals, the Go scheduler and garbage collector, memory exhaustion.
VRF theorems are over an arbitrary commutative group that satisfies the laws in `Spec/VRF.lean` (instances are given).

## Disagreements between the code and what its users rely on

Each is a theorem about the model; the witness can be replayed by hand against the cited lines.

1. **Binary ladders never end for versions from 2^31-1 on.** `uint32` overflow in `BaseBinaryLadder` (math/ladders.go). A search request with such a version makes the server loop. (`C19_ladder_diverges`, `C17_large_version_loops`, `C56_update_diverges`)
2. **A previous tree size of zero crashes the server.** `Last = 0` passes the comparison in `fullTreeHead`, then `UpdateView` starts at `0 - 1`. One request is enough, on every non-empty server. (`C17_zero_size_crashes`, `C17_zero_size_search`)
3. **`UpdateView` does not always cover the frontier.** Going from 4 to 7 entries nothing is requested, although entries 5 and 6 are new on the frontier. (C18_update_view_covers_false (exact characterisation in C18_update_view_covers_partial))
4. **A non-inclusion proof may name the searched leaf itself.** prefix/verify.go compares only when a path already exists. Absence of a present entry is accepted, and through it a stale version as the greatest one. (C11_names_itself, C60_stale_accepted; C12_self_named_addition_panics (auditor))
5. **The commitment of an included entry is not always compared.** prefix/verify.go: when another result of the batch has placed the leaf, only VRF outputs are compared. So a client accepts any value in the answer to a search when another path of the ladder ends at the leaf of the version that was searched for: the ladder for greatest version 2 is 0, 1, 3, 2. (`C10_commitment_not_checked`, `C60_false_value_accepted`)
6. **A mutation of the prefix tree that changes nothing makes the new version unreadable.** `getMutationRoot` with an empty batch writes a reference with an empty hash. (`C13_noop_unreadable`, `C13_noop_root_is_empty`)
7. **A search for no VRF outputs gives a proof that does not verify.** The tree is never loaded. (`C09_empty_list_does_not_verify`)
8. **`EvaluateBeforeAfter` computes a wrong root for some removals, refuses remove-and-add.** The remaining sibling is known only as a hash, so it is not moved up. The auditor then rejects what an honest server does, or signs a wrong root. (`C12_removal_wrong_after`, `C12_replace_rejected`, `C31_wrong_root`, `C34_removal_rejected`, `C34_replace_rejected`)
9. **The auditor forgets recently added entries.** auditor.go: `updateState` starts from an empty list, so only the entries added by the last update are protected from removal. (`C32_recent_removal_accepted`)
10. **A fresh auditor accepts any first root.** auditor.go: the root before the first update is not checked. (`C33_any_first_root`)
11. **The auditor can sign two heads of one size.** auditor.go: `Commit` keeps the signature when the write fails. (`C57_equivocation`)
12. **An auditor state with 65536 inserted VRF outputs cannot be stored.** 16-bit length prefix. (`C35_writable`)
13. **A new client accepts nothing, and crashes on the honest first response.** client_crypto.go: `finish` reads the tree head of the previous state, which is nil for a new client. (`C42_new_client_stuck`, `C42_first_response_panics`)
14. **No client ever moves to a new tree head.** client_crypto.go: `verifyTreeHead` refuses every tree that is not smaller than the stored one (the comparison is the wrong way round), and smaller ones fail in `Evaluate`. (`C43_tree_head_never_moves`, `C43_no_tree_head_accepted`, `C43_longer_log_rejected`)
15. **The proof for an unchanged tree is rejected.** The server leaves out the previous size, the client retains it; fails for all logs of odd size. (`C45_same_head_rejected`, `C45_odd_size_rejected`)
16. **After accepting a response about an unchanged tree the client cannot read its state (auditing mode).** The auditor's tree head is taken from the response, which has none. (`C59_unreadable`, `C59_accepted_then_stuck`)
17. **A missing auditor's tree head is not noticed (auditing mode).** Cannot arrive over the network, because the decoder always reads one. (`C44_missing_auditor_head`)
18. **The client's stored state for owned labels cannot be read back.** structs/client.go: a field of type `int` is neither written nor read by encoding/binary, and the retained versions are not written when there is an owner. (`C46_owner_false`, `C46_truncation_unnoticed`)
19. **Wire format: tree heads without auditor head, empty values without signature, proofs at depth 256 or with more than 255 results do not survive.** structs/tree_head.go, structs/crypto.go, prefix/proof.go. (`C47_missing_auditor_head_false`, `C47_missing_signature_false`, `C49_depth_256_false`, `C49_many_results_false`)
20. **Contact monitoring can lower a monitored version.** monitor.go: a pointer moved up overwrites the one that is there. (`C29_never_lowers_false`)
21. **A version whose terminal entry is the leftmost unexpired distinguished one is reported as expired.** search.go: `<` instead of `<=`. (`C27_expiry_false`)
22. **`Update` never answers.** update.go: every message that is sent is an error; a response would lack the new version, and more than one new version is not verifiable. (`C54_no_response`, `C54_no_manager_response`, `C54_new_version_missing`, `C54_one_version_only`)
23. **A crash between the two writes of `Commit` mixes states.** leveldb.go: the tree head is written separately from the batch. (`C38_crash_mixes_states`)
24. **After a failed `Mutate`, the next successful one commits its pending writes.** mutate.go/leveldb.go: no rollback. (`C36_after_failure_false`)
25. **Index and prefix tree disagree about the past of a label that was removed and added again.**  (`C36_removed_label_differs`)
26. **The managed log skips a version.** managed.go: after the first batch of a label one version is left out (0, 1, 3). (`C41_gap`)
27. **`Evaluate` panics if the new tree is smaller than the retained one.** verify.go does not check; its callers do. (`C06_shrinking_tree_panics`)
28. **Signed tree heads and signed updates can have the same bytes.** Matters only if one key signs both. (`C48_no_domain_separation`)
29. **A nil tree head, an empty index are not stored.** The server never writes them. (`C40_nil_tree_head`, `C37_empty_refused`)
30. **Honest answers are never accepted.** Everything up to the check of the tree head succeeds, for all histories; then a client without state panics and a client with state rejects the answer. If the size known to the client is on the frontier of the new tree, a fixed-version search can also fail because a timestamp is neither sent nor retained. (`C62_never_accepted`, `C62_outcome`, `C62_view_gap`)
31. **A label without versions is misreported.** The server answers a search for the greatest version of an unknown label with version 0, an empty value and a ladder of one step; the client computes another ladder and complains about the number of steps. With third-party management it complains about the leaf signature. (`C63_greatest_version`, `C63_third_party`)
32. **Not-found and expired errors are not authenticated.** Client.search returns the error of the search before `finish`, so neither the proof nor the signature of the tree head is checked. Anyone with the VRF proofs can make a client believe that a label does not exist. (`C64_unauthenticated`)
33. **ManagerUpdate without the operator's key crashes.** `setManagerRequest` calls `LeafPublicKey.Verify` whatever the deployment mode; without a third party manager in the configuration the key is nil, so each such request with a value panics. (`C17_manager_update_crashes`)
34. **Searching twice breaks monitoring.** `updateContactState` removes an entry only if the next position above it is in the map, and it overwrites positions with an older version. So after two searches that find the same version at different tree sizes, or a search for an older version, the map can have the same version twice or versions out of order. `verifyEntries` on the server then refuses every monitoring request for the label. (`C65_same_version_refused`, `C65_older_version_refused`)
35. **The monitoring map depends on Go's map order.** `simplifyMonitoringMap` deletes while it iterates. If an entry in the middle of a path is visited before the ones below, those stay although they are redundant, and the server refuses the map. (`C65_order_matters`)
36. **Finished monitoring crashes the client.** `ContactMonitor` sets the monitoring map to nil when nothing is left, and the client then calls `Struct` on it. So a client panics when monitoring of its last version ends, and the owner of a label panics on every valid answer to OwnerMonitor unless they also monitor a version found by a search. (`C67_finished_panics`, `C67_owner_never_succeeds`, `C67_panics_witness`)
37. **A server can hide a version from the owner of the label.** The owner checks in each distinguished log entry that no version follows the last one they created. The proof of absence may name the very leaf that is searched for, and the prefix tree verifier does not compare the two (as in C60). So a version that the server inserted stays hidden from owner monitoring, with a log that is otherwise right. The same holds for the answer to the initialization request. (`C70_hidden_accepted`, `C72_stale_accepted`)
38. **A monitored label can not be looked up again.** After a search `addLabelState` adds the versions retained for the label to those shown by the response, and `addVersion` refuses a version that is there already. Version 0 is in every ladder and in everything retained, so the second search for a label before the next distinguished log entry always fails, and so does becoming the owner of a label that is monitored. The comment of `addLabelState` says that it checks consistency; equal values should be accepted. (`C71_search_refused`, `C71_init_refused`, `C71_repeat_refused`)
39. **The owner does not check the first version that they add.** `updateLadderVersions` leaves out the versions in the ladder for the greatest version known before, and the first new version is always one of these. `processLadder` takes the commitments that the client computes from its values only for versions in that ladder, so for the first new version it uses the one retained from before. A client that followed the protocol has none, and refuses every answer to an update unless the new log entry is distinguished; then nothing is monitored, and the missing commitment makes later monitoring of that entry fail. A server that adds a commitment for the next version to its answer to the initialization, where an absent version may carry one, is believed: the owner then accepts an update though the log has another value. (`C73_not_monitored`, `C73_only_distinguished`, `C74_wrong_value_accepted`)
40. **A label that was removed can not be looked up any more.** The server predicts the ladder for each log entry from the index of the label, which is deleted with it, while the earlier entries keep its versions. As long as such an entry is on the search path, a search for a version that was added again with another value fails in `Output`; one with the same value, and a search for a label that was only removed, gives a proof that the client rejects. (`C76_replaced_refused`, `C76_replaced_rejected`, `C76_removed_rejected`)
41. **A reader loses against a writer.** A `Tree` opened for reading keeps its tree head, but its connection is not a snapshot, and the positions in the index are not cut off at the tree size. If a version is added to a label between the moment the tree head is read and the moment the index is read, the search for the greatest version of the label fails (it is never answered, not even with an older version), and a search for the new version returns its value before it is part of a tree head. If the label is removed, the answer has an empty value. (`C80_greatest_refused`, `C80_greatest_witness`, `C80_unpublished_witness`, `C80_removed_witness`)
42. **A crash during a commit destroys versions for good.** `Commit` writes everything but the tree head in one batch, and then the tree head. If the process ends in between, the restarted server has the old tree head and the new indices. Searches for the greatest version of the labels concerned are refused until the next change. The next change continues from the new indices, so that making the interrupted change again adds the values a second time, under higher version numbers, and the first ones never become part of the prefix tree. For a label that was new, every search fails from then on, at any version, and the label can not be removed (`can not remove vrf output that does not exist`). Auditors accept all of it. (`C82_greatest_refused`, `C82_versions_lost`, `C82_repeated_witness`, `C82_not_removable_witness`)
43. **Owner states share an array (C83).** `NewOwnerState` and `Struct` copy the slice header of `UpcomingVers`, not its elements, and `Update` appends in place when there is spare capacity. Two monitors made from the same state therefore write to the same cells: after an update through the second, the first believes that its update was at another position. `OwnerMonitor` clones the slice and is not affected. The client of this repository makes one monitor at a time, so it does not run into this. (`C83_independent_false`)
44. **Some answers to monitoring requests cannot be sent (C84).** The number of prefix proofs of a combined tree proof is encoded in one byte, but `ContactMonitor` produces a proof for every entry on the right direct paths of all entries of the map, and a request may hold 255 of them. For a label with a new version in each of 512 log entries, a contact that asks about every fourth version gets an answer with 256 prefix proofs. `Marshal` then returns an error. The server never answers that request, and a contact whose map holds these entries cannot monitor the label any more. (`C84_monitor_answer_false`)
45. **A response can make any client hang or crash.** The greatest version in a response is used to compute a binary ladder before anything is verified. From 2^31 - 1 on the computation of the ladder does not end, so a server (or whoever can alter a response) stops a client with a short message. The verification of an update uses the steps of the ladder before their number is checked, so a response with no steps makes the owner panic with an index out of range. (`C87_search_hangs`, `C87_init_hangs`, `C87_update_panics`)
46. **The in-memory database differs from LevelDB in its clones (C88).** `Clone` of the in-memory store shares its maps with the original but copies the tree heads, and leaves `ReadOnly` false (no method looks at it). So a clone can be written to where LevelDB panics, it sees entries before they are committed, and it never sees a later tree head. `updater.reloadTree` reads the tree head again to find new versions; from a clone of the in-memory database, on which the tests run, it would never find them. The two stores also differ for an auditor tree head without a tree head and for a nil tree head. (`C88_clone_writable`, `C88_uncommitted_visible`, `C88_stale_head`, `C88_auditor_only`, `C88_nil_head`)
47. **A truncated label state is accepted, and all retained versions are forgotten.** structs/client.go:195-199 ignores the error of reading the retained versions. A stored state cut off anywhere after the monitoring map is read as the same state without any retained version; only cuts inside the monitoring map are errors. (`C46_truncation`)
48. **Eight bytes make a server reserve 4 GB.** structs.go:94 `readBytes` calls `make([]byte, size)` with the size found in the message before it looks whether the message is that long. With a four-byte size (values in update requests, in the requests to a manager, in search and update responses) that is up to 4 GB for a message of 8 bytes. All other messages have one- and two-byte sizes and are bounded by a small multiple of their length plus 3 MB. (`C90_update_request_false`, `C90_manager_update_request_false`, `C90_search_response_false`, `C90_update_response_false`, `C90_requests_partial`, `C90_responses_partial`)
49. **The P-256 nonce is not the one of RFC 6979 for one point in 2^32.** p256.go:59-90 uses the digest of the point as it is, where RFC 6979 (3.2 d, f) uses bits2octets of it, that is, reduced modulo the group order. The nonce is still in range and still not reused; only test vectors with such a point would tell. (`C92_p256_not_reduced`, `C92_p256_octets`, `C92_p256_rfc_partial`)
50. **A monitored label is due again at once; an owned label makes Monitor fail.** client.go:406-413, 459 and 315 store the label with the rightmost distinguished entry (or an entry before it) as terminal entry; db.go:75-78 returns any label whose terminal entry is at or before that same entry. So Monitor recommends the label again although nothing has changed, never returns nil, and may never come to the other labels. A label stored by InitOwner is due as well, but its state cannot be read, so that Monitor and Update return an error. (`C93_contact_again`, `C93_never_nil`, `C93_starves`, `C93_owner_never`, `C93_init_breaks`)
51. **The server program can insert a value and report a timeout.** `inserter` sends the result with a `default` case on an unbuffered channel; if the handler is still between its two `select` statements, the result is thrown away although no time has passed, and the client is told after five seconds that the result did not come. (The program is excluded from the build.) A body of exactly 16384 bytes is refused or not depending on when `io.EOF` comes. (`C94_lost`, `C94_thrown_away`, `C94_body_limit`)
52. **The auditor's head may go back.** A client in auditing mode does not compare the auditor's head in a response with the one that it has retained (apart from the start position): a head with an earlier timestamp and a smaller size is accepted whenever a client without state accepts it. (`C44_auditor_goes_back`)

## Properties

| id | property | status | where |
|---|---|---|---|
| C01 | Log tree node numbering is a correct left-balanced tree | proved | `Props/C01_LogMath`, `Props/LogMath64` |
| C02 | Appending to the log yields the Merkle tree of all entries | proved | `Props/C02_LogAppend` |
| C03 | Stored log and stateless log agree for ever | proved | `Props/C03_C04_LogStore` |
| C04 | Honest batch inclusion/consistency proofs verify | proved | `Props/C03_C04_LogStore` |
| C05 | Log inclusion proofs are sound | proved | `Props/C05_C06_LogSound` |
| C06 | Log consistency proofs are sound: the log is append-only | proved | `Props/C05_C06_LogSound` |
| C07 | The prefix tree root is determined by its contents | proved | `Props/C07_C09_Prefix` |
| C08 | Prefix tree mutation implements a finite map | proved | `Props/C07_C09_Prefix` |
| C09 | Prefix tree search answers correctly and its proof verifies | partial | `Props/C07_C09_Prefix` |
| C10 | Accepted prefix inclusion proofs are sound | partial | `Props/C10_C13_PrefixSound` |
| C11 | Accepted prefix non-inclusion proofs are sound | partial | `Props/C10_C13_PrefixSound` |
| C12 | Auditor's before/after evaluation matches the log's mutation | partial | `Props/C10_C13_PrefixSound`, `Props/C12_Exact` |
| C13 | A mutation that changes nothing leaves a usable tree | partial | `Props/C10_C13_PrefixSound` |
| C14 | Tiling and reloading a prefix tree loses nothing | proved | `Props/C14_C15_PrefixTiles` |
| C15 | Past prefix tree versions are immutable | proved | `Props/C14_C15_PrefixTiles` |
| C16 | The implicit search tree over log entries is a search tree | proved | `Props/C16_C18_SearchTree` |
| C17 | Every request that decodes is answered without crashing | partial | `Props/C17_Requests`, `Props/C17_Answered` |
| C18 | Updating the view covers the new frontier | partial | `Props/C16_C18_SearchTree` |
| C19 | Binary ladders terminate and bracket the version | partial | `Props/C19_C22_Ladder` |
| C20 | Interpreting a search ladder gives the true comparison | proved | `Props/C19_C22_Ladder` |
| C21 | Omitting ladder lookups already proven elsewhere is safe | proved | `Props/C19_C22_Ladder` |
| C22 | Server and client walk the same ladder | proved | `Props/C19_C22_Ladder` |
| C23 | The rightmost distinguished log entry is found | proved | `Props/C23_C25_Distinguished` |
| C24 | The previous rightmost distinguished log entry is found | proved | `Props/C23_C25_Distinguished` |
| C25 | Distinguished entries stay distinguished | proved | `Props/C23_C25_Distinguished` |
| C26 | Greatest-version search is correct | proved | `Props/C26_C27_Search` |
| C27 | Fixed-version search finds an entry containing the version | partial | `Props/C26_C27_Search` |
| C28 | Timestamps accepted by a client are non-decreasing in position | proved | `Props/C28_Timestamps` |
| C29 | Contact monitoring moves monitored positions to distinguished entries | partial | `Props/C29_ContactMonitor`, `Props/C83_MonitorMemory` |
| C30 | Owner monitoring bookkeeping is exact | proved | `Props/C30_OwnerMonitor`, `Props/C83_MonitorMemory` |
| C31 | The auditor only signs append-only, monotone histories | partial | `Props/C31_C35_Auditor`, `Props/C31_Exact`, `Props/C31_Accepts` |
| C32 | The auditor rejects removal of unpublished entries | partial | `Props/C31_C35_Auditor`, `Props/C31_Accepts` |
| C33 | A fresh auditor starts from the empty tree | partial | `Props/C31_C35_Auditor` |
| C34 | The auditor accepts everything an honest log publishes | partial | `Props/C34_HonestAudit`, `Props/C34_Exact` |
| C35 | Auditor state survives a restart | proved | `Props/C35_Sendable`, `Props/C31_C35_Auditor` |
| C36 | Versions are assigned consecutively and positions never decrease | partial | `Props/C36_Server` |
| C37 | The label index encoding is lossless | proved | `Props/C37_C40_Database` |
| C38 | A crash during commit leaves the old or the new state | partial | `Props/C37_C40_Database` |
| C39 | Database keys of different records never collide | proved | `Props/C37_C40_Database` |
| C40 | Uncommitted writes are visible to their writer and only to it | proved | `Props/C37_C40_Database` |
| C41 | A service operator signs consecutive versions | partial | `Props/C41_Managed` |
| C42 | A new client can accept its first response | partial | `Props/C42_C45_Client`, `Props/C44_C45_Heads`, `Props/C87_NewClient` |
| C43 | A client with state can follow the log | partial | `Props/C42_C45_Client`, `Props/C44_C45_Heads` |
| C44 | A client never accepts an unsigned, stale or shrinking tree head | proved | `Props/C44_C45_Heads`, `Props/C42_C45_Client` |
| C45 | Responses about an unchanged tree verify | partial | `Props/C44_C45_Heads` |
| C46 | Client state survives a restart | partial | `Props/C46_C47_Wire`, `Props/C46_Truncation` |
| C47 | Wire messages round-trip | partial | `Props/C46_C47_Wire`, `Props/C46_Truncation` |
| C48 | Signed, committed and VRF-input byte strings are unambiguous | proved | `Props/C48_Injective` |
| C49 | Prefix proofs round-trip on the wire | partial | `Props/C49_PrefixWire` |
| C50 | VRF proofs from the key holder verify | proved | `Props/C50_C52_Crypto` |
| C51 | VRF outputs cannot be equivocated | proved | `Props/C50_C52_Crypto` |
| C52 | Commitments bind and open | proved | `Props/C50_C52_Crypto` |
| C53 | A client configuration that would disable verification is refused | proved | `Props/C53_Config` |
| C54 | Label updates from the server can be monitored by the owner | partial | `Props/C54_Update`, `Props/C54_Collected` |
| C55 | A version proof request is answered in bounded work | proved | `Props/C19_C22_Ladder` |
| C56 | A label owner's update check covers every new version | partial | `Props/C56_OwnerUpdate` |
| C57 | An auditor never equivocates | partial | `Props/C31_C35_Auditor`, `Props/C57_Restarts` |
| C58 | The published tree head covers the whole log | proved | `Props/C36_Server` |
| C59 | A client can read the state it has stored | partial | `Props/C59_StoredState` |
| C60 | What a client accepts as a search result is in the log | partial | `Props/C60_SearchSound` |
| C61 | Proofs have no slack | proved | `Props/C05_C06_LogSound`, `Props/C10_C13_PrefixSound` |
| C62 | The answers of an honest server convince an honest client | partial | `Props/C62_Served` |
| C63 | A client learns that a label has no versions | partial | `Props/C63_Absent` |
| C64 | A client reports absence only if the log shows it | partial | `Props/C64_Absence` |
| C65 | The monitoring map that a client keeps is one that the server accepts | partial | `Props/C65_MonitoringMap` |
| C66 | Simplifying the monitoring map drops nothing | proved | `Props/C65_MonitoringMap` |
| C67 | Monitoring against an honest server succeeds | partial | `Props/C67_Monitored` |
| C68 | With third-party management clients accept only values signed by the operator | proved | `Props/C68_Signed` |
| C69 | An accepted monitoring answer shows that monitored versions are still there | proved | `Props/C69_MonitorSound` |
| C70 | An accepted answer to the owner shows that nobody else changed the label | partial | `Props/C69_MonitorSound` |
| C71 | A label can be looked up again while it is monitored | partial | `Props/C71_SearchAgain` |
| C72 | An accepted initialization answer gives the owner the true versions of the label | partial | `Props/C72_InitSound` |
| C73 | The owner of a label can add a version and monitors it | partial | `Props/C73_UpdateSound` |
| C74 | An accepted answer to an update shows that the owner's values are in the log | partial | `Props/C73_UpdateSound` |
| C75 | The server initializes owners at distinguished entries, and clients accept its answers | partial | `Props/C75_Initialized` |
| C76 | A label that was removed can be looked up again | partial | `Props/C76_Removed`, `Props/C62_Served` |
| C77 | Signatures survive their encoding | proved | `Props/C77_Keys` |
| C78 | Every VRF key pair is accepted | proved | `Props/C77_Keys` |
| C79 | One tree head, one answer | partial | `Props/C79_OneAnswer` |
| C80 | Readers do not see changes made while they work | partial | `Props/C80_Isolated` |
| C81 | The stream of update responses ends properly | proved | `Props/C81_UpdateStream` |
| C82 | A change can be repeated after a crash | partial | `Props/C82_Crash` |
| C83 | Operations of a monitor change nothing but the monitor | partial | `Props/C83_MonitorMemory` |
| C84 | Every answer of the server can be sent | partial | `Props/C84_Sendable`, `Props/C84_MonitorSent`, `Props/C84_Monitor` |
| C85 | The server makes exactly the acceptable changes | proved | `Props/C85_Changes` |
| C86 | Answers about a label do not reveal other labels | proved | `Props/C86_OtherLabels` |
| C87 | No response makes a client crash or hang | partial | `Props/C87_Receive`, `Props/C87_NewClient` |
| C88 | The in-memory database behaves like the LevelDB database | partial | `Props/C88_Memory` |
| C89 | A manager accepts exactly what its service operator signed | proved | `Props/C89_Manager` |
| C90 | Decoding reserves memory in proportion to the message | partial | `Props/C90_Alloc` |
| C91 | Searching several versions of the prefix tree at once gives the answers of separate searches | proved | `Props/C91_Batch` |
| C92 | VRF nonces are those of the RFCs, and are not used twice | partial | `Props/C92_Nonce` |
| C93 | Monitoring gets around to every label | partial | `Props/C93_Schedule` |
| C94 | What the client of a POST request is told matches what happened | partial | `Props/C94_Inserter` |
| C95 | Clients that accept heads of the same auditor have the same log, as far as it was audited | proved | `Props/C95_Audited` |
| C96 | Request metrics do not contain account names; a consistency proof is added exactly when asked for | proved | `Props/C96_Metrics` |
| C97 | In an audited log a version of a label has one value | partial | `Props/C97_OneValue`, `Props/C60_SearchSound` |
| C98 | Nothing changes in an audited log without being listed to the auditor | proved | `Props/C98_Listed` |
| C99 | Every value that a client accepts was shown to the auditor | partial | `Props/C98_Listed`, `Props/C60_SearchSound` |
| C100 | The VRF hashes what RFC 9381 prescribes, and nothing it hashes can be mistaken for anything else | proved | `Props/C100_VRFStrings` |
| C101 | The keys that generate-keys prints work together | proved | `Props/C101_GenerateKeys` |
| C102 | In an audited log nobody is given an old version as the newest one | partial | `Props/C102_Fresh`, `Props/C60_SearchSound` |
| C103 | In an audited log an owner learns of every version that anyone has found | partial | `Props/C103_OwnerLearns`, `Props/C69_MonitorSound`, `Props/C72_InitSound` |
| C104 | In an audited log a client finds the value that the owner has | partial | `Props/C104_OwnersValue`, `Props/C60_SearchSound` |
| C105 | In an audited log the owners of a label agree about its versions and values | partial | `Props/C105_OwnersAgree`, `Props/C69_MonitorSound` |
| C106 | In an audited log nobody is given a version older than the one the owner knows of | partial | `Props/C106_NotBehindOwner`, `Props/C60_SearchSound` |

## Testing the theorems

`seeded/LOG.jsonl` records mutation tests: the model is changed, in a scratch copy, as a realistic bug would change
the code, and everything is rebuilt. A theorem about a claim that the bug breaks must fail. Where it did not, the
theorem was tightened, and the log says so.
