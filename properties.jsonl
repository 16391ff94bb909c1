{"id": "C01", "title": "Agreement: no two honest replicas commit different batches at one sequence number", "statement": "With n=3f+2c+1 replicas of which at most f are Byzantine, if two honest replicas commit (hand to execution) a batch at the same sequence number, in the same or in different views, by the fast or the slow path, then the two batches have the same digest.", "quantifier": "all f, c, all schedules of messages, all Byzantine behaviours, all numbers of view changes, all views and sequence numbers", "why_tests_cant": "quantifies over every interleaving of consensus and view-change messages and every adversary; a test runs one schedule", "anchors": ["bftengine/src/bftengine/ReplicaImp.cpp: onMessage<PrePrepareMsg>, sendPreparePartial, sendCommitPartial, MoveToHigherView, onNewView", "bftengine/src/bftengine/ViewsManager.cpp: exitFromCurrentView, tryToEnterView", "bftengine/src/bftengine/ViewChangeSafetyLogic.cpp: computeRestrictions"]}
{"id": "C02", "title": "A committed batch survives every view change", "statement": "If a batch was committed at sequence number s in some view, then the set of restrictions computed from any quorum of 2f+2c+1 view-change messages for a later view forces exactly that digest at s (for s in the restricted range).", "quantifier": "all f, c, all quorums of view-change messages (any subset of senders, any Byzantine contents), all sequence numbers in range", "why_tests_cant": "depends on every choice of quorum and every adversarial message content", "anchors": ["bftengine/src/bftengine/ViewChangeSafetyLogic.cpp: computeRestrictionsForSeqNum, computeRestrictions, calcLBStableForView"]}
{"id": "C03", "title": "View-change restrictions are a function of the set of view-change messages", "statement": "Two replicas that process the same set of view-change messages, in any order, compute the same lower bound, the same restricted range and the same digest (or null) at each sequence number.", "quantifier": "all lists of valid view-change messages, all permutations, all sequence numbers", "why_tests_cant": "n! orders and unbounded message contents; iterator bookkeeping swaps array slots during the scan", "anchors": ["bftengine/src/bftengine/ViewChangeSafetyLogic.cpp: computeRestrictions, computeRestrictionsForSeqNum"]}
{"id": "C04", "title": "The view-change scan finds for each sequence number exactly the elements reported for it", "statement": "The single left-to-right pass with one iterator per view-change message (advance, swap-remove of exhausted iterators) yields for each sequence number in the range the same restriction as looking up, in every message, the elements with that sequence number.", "quantifier": "all families of sorted element lists, all ranges", "why_tests_cant": "needs every combination of list lengths, gaps and exhaustion orders", "anchors": ["bftengine/src/bftengine/ViewChangeSafetyLogic.cpp: computeRestrictions"]}
{"id": "C05", "title": "The stable lower bound of a view change is vouched for by an honest replica", "statement": "The lower bound computed from 2f+2c+1 view-change messages is at most the last-stable value reported by at least f+1 of the senders (so by an honest one), and at least the value that all but f of them stay below or equal; it does not depend on message order.", "quantifier": "all f, c, all multisets of reported last-stable values", "why_tests_cant": "must hold for every vector of reported values, including adversarial ones", "anchors": ["bftengine/src/bftengine/ViewChangeSafetyLogic.cpp: calcLBStableForView"]}
{"id": "C06", "title": "View-change message validation admits exactly well-formed element lists", "statement": "A received view-change message accepted by validation has strictly increasing sequence numbers in (lastStable, lastStable+window], origin view below the new view, certificate view at most the origin view and a non-empty signature; conversely every message an honest sender builds is accepted, and the elements read back are the elements added.", "quantifier": "all byte strings received from the network; all element lists an honest replica can build", "why_tests_cant": "input space is all byte strings up to the maximum message size", "anchors": ["bftengine/src/bftengine/messages/ViewChangeMsg.cpp: validate, checkElements, checkComplaints, addElement, ElementsIterator"]}
{"id": "C07", "title": "Active window behaves as a map over the current window", "statement": "For every sequence of operations, the ring-buffer active window behaves as a map from the sequence numbers of the current window to items: reads give the last write since the slot entered the window, sequence numbers newly entering are reset, and no sequence number outside the window is served.", "quantifier": "all window sizes, resolutions and operation histories", "why_tests_cant": "wrap-around and partial advance interactions occur only for particular offset/advance combinations", "anchors": ["bftengine/src/bftengine/SequenceWithActiveWindow.hpp"]}
{"id": "C08", "title": "Window history returns the items that most recently left the window", "statement": "After any history of advances, the history part of the window returns for each past sequence number it claims to hold the item that was stored there when it left the window.", "quantifier": "all histories of writes and advances", "why_tests_cant": "same as above", "anchors": ["bftengine/src/bftengine/SequenceWithActiveWindow.hpp: getFromHistory, advanceActiveWindow"]}
{"id": "C09", "title": "Message certificate becomes complete exactly at quorum of consistent messages", "statement": "A certificate reports complete iff at least the required number of distinct senders sent messages that are equivalent to each other (or to the node's own message once it is known), for any arrival order and duplicates; at most one class of messages ever completes when the quorum is a majority.", "quantifier": "all arrival orders, duplicates, conflicting contents", "why_tests_cant": "n! arrival orders and arbitrary contents", "anchors": ["bftengine/src/bftengine/messages/MsgsCertificate.hpp", "bftengine/src/bftengine/CheckpointInfo.hpp"]}
{"id": "C10", "title": "Threshold-signature collector only completes with enough distinct valid shares for one digest", "statement": "A collector holding a combined signature for (view, seq, digest) obtained it either from a received combined signature that verified or from at least the required number of shares of distinct signers that all verified for that digest; a duplicate share from the same signer or an invalid combination never makes it complete, and once complete it stays so until reset.", "quantifier": "all interleavings of shares, combined signatures, background completion events and resets", "why_tests_cant": "races between the background combination job and new arrivals", "anchors": ["bftengine/src/bftengine/CollectorOfThresholdSignatures.hpp"]}
{"id": "C11", "title": "Execution is in order, without gaps, and only of committed batches", "statement": "Over any run of a replica, the sequence of executed sequence numbers is 1,2,3,... starting from the initial last-executed value without gaps or repetition (in the absence of crashes and state transfer), and each executed batch had a commit proof at the time.", "quantifier": "all schedules of commit notifications, stable-checkpoint advances and executions", "why_tests_cant": "every interleaving", "anchors": ["bftengine/src/bftengine/ReplicaImp.cpp: executeNextCommittedRequests, executeRequestsInPrePrepareMsg, tryToStartOrFinishExecution"]}
{"id": "C12", "title": "Crash during execution never loses or repeats a batch", "statement": "For every crash point between persisting the last-execution descriptor and persisting the new last-executed number, recovery resumes so that after recovery each batch's application effects are applied exactly once per request selected in the persisted bitmap; no committed batch is skipped.", "quantifier": "all crash points in every execution, any number of consecutive crashes", "why_tests_cant": "crash points are an unbounded family; a test exercises a few", "anchors": ["bftengine/src/bftengine/ReplicaImp.cpp: recoverRequests, executeRequestsInPrePrepareMsg", "bftengine/src/bftengine/PersistentStorageDescriptors.hpp"]}
{"id": "C13", "title": "A client request is executed at most once", "statement": "The same client request (client id, request sequence number) is not executed twice by a replica.", "quantifier": "all histories of batches proposed by any primary including a Byzantine one", "why_tests_cant": "requires every batch contents and history", "anchors": ["bftengine/src/bftengine/ClientsManager.cpp", "bftengine/src/bftengine/ReplicaImp.cpp: executeRequestsInPrePrepareMsg"]}
{"id": "C14", "title": "Clients manager bookkeeping is per client and bounded", "statement": "For every sequence of calls, pending requests of one client never exceed the configured maximum, a request with a retained reply is never admitted as pending, replies retained per client never exceed the configured number, and operations for one client never change another client's answers.", "quantifier": "all call histories, all clients", "why_tests_cant": "unbounded histories", "anchors": ["bftengine/src/bftengine/ClientsManager.cpp"]}
{"id": "C15", "title": "Batch digest binds the batch contents", "statement": "Two PrePrepare messages with the same digest contain the same requests (given a collision-free hash).", "quantifier": "all pairs of batches", "why_tests_cant": "pairs of arbitrary byte strings", "anchors": ["bftengine/src/bftengine/messages/PrePrepareMsg.cpp: calculateDigestOfRequests"]}
{"id": "C16", "title": "Client accepts a result only with a full matching quorum", "statement": "The BFT client returns a reply only if the configured number of distinct replicas in the destination set sent the same (sequence number, result, metadata) reply to this request; with an honest-majority quorum config the returned result was sent by at least one honest replica.", "quantifier": "all reply streams, all quorum configurations", "why_tests_cant": "arbitrary interleaving of honest and Byzantine replies", "anchors": ["client/bftclient/src/matcher.cpp", "client/bftclient/src/quorums.cpp"]}
{"id": "C17", "title": "Consensus time is strictly monotonic and identical on all replicas", "statement": "For every sequence of batch timestamps, the time values delivered to execution are strictly increasing, and replicas starting from the same reserved page that execute the same batches deliver the same values, whatever their local clocks.", "quantifier": "all sequences of proposed timestamps incl. Byzantine, all local clocks", "why_tests_cant": "clock skew and adversarial timestamps", "anchors": ["bftengine/src/bftengine/TimeServiceManager.hpp"]}
{"id": "C18", "title": "Cron actions fire deterministically per component and periodically", "statement": "Each tick evaluates exactly the actions of its component in position order; a periodic action runs the first time and then once the tick time has reached the persisted next-invoke time; replicas that see the same ticks run the same actions.", "quantifier": "all tick sequences", "why_tests_cant": "unbounded tick histories", "anchors": ["ccron/src/cron_table.cpp", "ccron/src/periodic_action.cpp", "ccron/src/cron_table_registry.hpp"]}
{"id": "C19", "title": "Pre-execution result is agreed by f+1 replicas", "statement": "The primary completes pre-execution of a request with a result only if the required number of replicas reported the hash of that result; it cancels only when that can no longer happen.", "quantifier": "all arrival orders of replies, duplicates, conflicting hashes", "why_tests_cant": "arrival orders and adversarial replies", "anchors": ["bftengine/src/preprocessor/RequestProcessingState.cpp"]}
{"id": "C20", "title": "Sparse Merkle tree root is a function of the key/value-hash contents", "statement": "After any history of update batches (puts and deletes), the root hash equals that of a specification hash computed from the resulting set of (key hash, value hash) pairs; it does not depend on the history or batch order.", "quantifier": "all key sets, all histories of batches", "why_tests_cant": "history independence over unbounded histories of 256-bit keys", "anchors": ["kvbc/src/sparse_merkle/tree.cpp", "kvbc/src/sparse_merkle/internal_node.cpp", "kvbc/src/sparse_merkle/walker.cpp"]}
{"id": "C21", "title": "Sparse Merkle tree root binds contents", "statement": "If the hash functions are collision free, two trees with equal roots have the same set of (key hash, value hash) pairs.", "quantifier": "all pairs of trees", "why_tests_cant": "pairs of arbitrary trees", "anchors": ["kvbc/src/sparse_merkle/internal_node.cpp"]}
{"id": "C22", "title": "Old tree versions stay readable until declared stale", "statement": "Applying an update never modifies nodes of earlier versions, and deleting the nodes reported stale since version v leaves every key readable at versions \u2265 v.", "quantifier": "all histories of updates, all versions", "why_tests_cant": "unbounded histories", "anchors": ["kvbc/src/sparse_merkle/tree.cpp", "kvbc/src/sparse_merkle/walker.cpp", "kvbc/src/sparse_merkle/update_cache.cpp"]}
{"id": "C23", "title": "Versioned category: get(key, block) returns the value written at that block; getLatest the newest not deleted", "statement": "For any history of block additions with puts and deletes, versioned reads return exactly the value put at the given block, and latest reads return the value of the highest block that put the key unless a later block deleted it.", "quantifier": "all histories of updates", "why_tests_cant": "unbounded histories of puts/deletes", "anchors": ["kvbc/src/categorization/versioned_kv_category.cpp"]}
{"id": "C24", "title": "Pruning the genesis block preserves the latest state", "statement": "Deleting the oldest block never changes any latest read of any key in any category, except for keys explicitly marked stale-on-update or deleted.", "quantifier": "all histories of blocks and prunings", "why_tests_cant": "unbounded histories", "anchors": ["kvbc/src/categorization/versioned_kv_category.cpp: deleteGenesisBlock", "kvbc/src/categorization/block_merkle_category.cpp", "kvbc/src/categorization/kv_blockchain.cpp"]}
{"id": "C25", "title": "Deleting the last reachable block is an exact undo", "statement": "For any blockchain state, adding a block and then deleting the last reachable block gives back the previous latest values, versions and last block id.", "quantifier": "all states, all updates", "why_tests_cant": "all states", "anchors": ["kvbc/src/categorization/kv_blockchain.cpp: deleteLastReachableBlock", "kvbc/src/categorization/versioned_kv_category.cpp"]}
{"id": "C26", "title": "Blocks form a hash chain", "statement": "Each block stores the digest of its parent; two replicas whose last blocks have equal digests have identical chains (given a collision-free hash).", "quantifier": "all chains", "why_tests_cant": "all pairs of chains", "anchors": ["kvbc/src/categorization/kv_blockchain.cpp", "kvbc/src/categorization/blocks.cpp"]}
{"id": "C27", "title": "State-transfer blocks link only when contiguous, and end with the same state as the source", "statement": "Blocks received in any order by state transfer are linked to the chain exactly when the chain up to them is contiguous; after linking all, the chain and latest state equal the source's.", "quantifier": "all arrival orders and interleavings with crashes", "why_tests_cant": "arrival orders and crash points", "anchors": ["kvbc/src/categorization/kv_blockchain.cpp: linkSTChainFrom, addBlockToSTChain", "kvbc/src/v4blockchain/detail/st_chain.cpp"]}
{"id": "C28", "title": "CMF messages round-trip and decoding is total", "statement": "For every CMF message value, deserialize(serialize m) = m consuming exactly the written bytes; for every byte string the decoder either throws or returns a value without reading outside the buffer.", "quantifier": "all messages, all byte strings", "why_tests_cant": "infinite input space", "anchors": ["messages/compiler/cpp/serialize.cpp"]}
{"id": "C29", "title": "Range validation tree root depends only on the blocks in range", "statement": "For any history of adding nodes on the right and removing on the left, the root value equals the sum function of the leaves currently in the tree.", "quantifier": "all histories of add/remove", "why_tests_cant": "unbounded histories", "anchors": ["bftengine/src/bcstatetransfer/RangeValidationTree.cpp"]}
{"id": "C30", "title": "LRU cache returns only the last value put and evicts the least recently used", "statement": "For every sequence of put/get, get returns the last put value or nothing; the size never exceeds capacity; a key among the capacity most recently used keys is always present.", "quantifier": "all operation sequences, capacities", "why_tests_cant": "unbounded sequences", "anchors": ["libs/util/lru_cache.hpp"]}
{"id": "C31", "title": "Primary rotation and collectors are deterministic and fair", "statement": "Primary of view v is v mod n on every replica, so every replica is primary exactly once in n consecutive views; the fast-path collectors for a view and sequence number are computed equally by all: one replica if c=0, two distinct ones if c>0, never the primary, and every backup is collector for some of any n consecutive sequence numbers; with an operator every valid principal id has exactly one kind.", "quantifier": "all n, f, c, views and sequence numbers", "why_tests_cant": "arithmetics over all parameters", "anchors": ["bftengine/src/bftengine/ReplicasInfo.cpp"]}
{"id": "C32", "title": "Thin replica server: a subscriber gets every update it may see, once, in order, unless told otherwise", "statement": "What a subscriber of the thin replica server receives is a contiguous run of the blocks (event groups) it may see, from the requested one on, in order, each once and under its own id, whatever the interleaving of reading history, live publication, pruning and cancellation; a slow subscriber loses updates only by an overrun that ends its stream; finding an event group by the client's own numbering is correct for every history and every amount of pruning.", "quantifier": "all histories of blocks and event groups, all interleavings of producer, subscriber and pruning, all start positions", "why_tests_cant": "interleavings of storage reads with the live queue, and the binary search over two interleaved counters, have unboundedly many cases", "anchors": ["thin-replica-server/include/thin-replica-server/subscription_buffer.hpp: SubUpdateBuffer", "thin-replica-server/include/thin-replica-server/thin_replica_impl.hpp: SubscribeToUpdates, syncAndSend, syncAndSendEventGroups", "kvbc/src/kvbc_app_filter/kvbc_app_filter.cpp: findGlobalEventGroupId, readEventGroups, readBlockRange"]}
{"id": "C33", "title": "Thin replica client accepts an update only when f+1 servers agree", "statement": "With at most f faulty servers a subscription from block b delivers exactly the genuine blocks b, b+1, ... (followed, after the change to event groups, by consecutive genuine event groups), each reported with the same id and hash by at least f+1 distinct servers; a subscription from event group g delivers exactly g, g+1, .... The subscription ends with OutOfRange/NotFound only if an honest server said so and not with InternalError while honest servers agree; if the honest servers answer, the next update is delivered.", "quantifier": "all server behaviours with at most f faulty, all interleavings of timeouts and failures, all histories of iterations", "why_tests_cant": "adversarial servers", "anchors": ["client/thin-replica-client/src/thin_replica_client.cpp:receiveUpdates,readBlock,findBlockHashAgreement,rotateDataStreamAndVerify,recordCollectedHash", "client/thin-replica-client/src/trc_hash.cpp", "kvbc/src/kvbc_app_filter/kvbc_app_filter.cpp:hashUpdate"]}
{"id": "C34", "title": "Metadata transactions are atomic", "statement": "Metadata written inside nested begin/end transactions becomes visible and durable all together when the outermost ends; a crash before leaves the previous values.", "quantifier": "all transaction nestings and crash points", "why_tests_cant": "crash points", "anchors": ["bftengine/src/bftengine/PersistentStorageImp.cpp", "bftengine/src/bftengine/DbMetadataStorage.cpp"]}
{"id": "C35", "title": "State transfer completes only to a checkpoint vouched for by f+1 replicas", "statement": "A replica starts fetching a checkpoint only after f+1 distinct replicas reported the same checkpoint descriptor, and installs only blocks/pages whose digests chain to it.", "quantifier": "all message interleavings with at most f faulty replicas", "why_tests_cant": "adversarial messages", "anchors": ["bftengine/src/bcstatetransfer/BCStateTran.cpp", "bftengine/src/bcstatetransfer/MsgsCertificate.hpp"]}
{"id": "C36", "title": "A vote is bound to one view, sequence number and digest", "statement": "The bytes signed for a vote determine the view, the sequence number and the batch digest voted for, so that a share or certificate cannot be reused for another view or sequence number.", "quantifier": "all views, sequence numbers and digests", "why_tests_cant": "256-bit digests and 64-bit views and numbers", "anchors": ["libs/crypto/digest_holder.hpp: calcCombination", "bftengine/src/bftengine/messages/SignedShareMsgs.cpp", "bftengine/src/bftengine/ViewChangeSafetyLogic.cpp"]}
{"id": "C37", "title": "The v4 blockchain's reads are a function of its history", "statement": "In every state of the v4 key-value blockchain the reported genesis and last block ids, has-block, block data, parent digest, versioned reads, latest values, latest versions and stale keys are those determined by the list of all blocks added and not reverted (the entry of a stale-on-update or immutable key may disappear once its block is pruned); the blocks form a hash chain; adding well formed updates succeeds and is read back; pruning never removes the last block; linking blocks delivered by state transfer yields the source's blocks; after a crash in the middle of a BFT sequence number the start, interrupted any number of times, completes and restores exactly the state before it; a DB checkpoint is trimmed back to its block.", "quantifier": "all sequences of adds, prunings, compactions, state transfers, restarts, crashes and interrupted recoveries; all keys, values and categories", "why_tests_cant": "the crash points during recovery, the compaction schedule and the histories are unbounded", "anchors": ["kvbc/src/v4blockchain/v4_blockchain.cpp: KeyValueBlockchain", "kvbc/src/v4blockchain/detail/latest_keys.cpp: LatestKeys", "kvbc/src/v4blockchain/detail/blockchain.cpp: Blockchain", "kvbc/src/v4blockchain/detail/st_chain.cpp: StChain", "kvbc/src/replica_state_sync_imp.cpp: ReplicaStateSyncImp"]}
{"id": "C38", "title": "Replica specific information reaches the client", "statement": "A reply whose last part is replica specific information reaches the client with exactly that data and that information, whether it is sent the first time or resent, before and after a restart of the replica.", "quantifier": "all replies, histories of requests of all clients, and restarts", "why_tests_cant": "memory corruption and wrong offsets depend on sizes and on restarts; the histories are unbounded", "anchors": ["bftengine/src/bftengine/ReplicaSpecificInfoManager.cpp: RsiDataManager, RsiItem", "bftengine/src/bftengine/ClientsManager.cpp: allocateNewReplyMsgAndWriteToStorage, allocateReplyFromSavedOne", "client/bftclient/src/msg_receiver.cpp: onNewMessage"]}
{"id": "C39", "title": "Client requests: what is received is what the client signed", "statement": "A request sent by a correctly configured client is let in by a replica whose gates are open and is handed to the handlers with exactly the data, correlation id, span context, sequence number and signature the client sent; a request of an external client is let in only if its signature verifies over exactly the data that is executed and all its parts are consecutive parts of the received bytes, whoever delivered them; the same holds for every request inside a client batch; no message makes a replica read outside of the received bytes or abort.", "quantifier": "all byte strings received from all senders, all client configurations and data, all batches, all tables of principals and signature schemes", "why_tests_cant": "the byte strings an attacker can send and the sizes of the fields are unbounded; most wrong messages are well formed", "anchors": ["bftengine/src/bftengine/messages/ClientRequestMsg.cpp: validateImp", "bftengine/src/preprocessor/messages/ClientBatchRequestMsg.cpp: checkElements, getClientPreProcessRequestMsgs", "bftengine/src/bftengine/MsgReceiver.cpp: onNewMessage", "bftengine/src/bftengine/ReplicaImp.cpp: onMessage<ClientRequestMsg>", "bftengine/src/preprocessor/PreProcessor.cpp: onMessage<ClientBatchRequestMsg>", "client/bftclient/src/bft_client.cpp: createClientMsg, createClientBatchMsg"]}
{"id": "C40", "title": "Rotation of consensus keys: who verifies with what", "statement": "At every sequence number every replica verifies the shares of a replica with the key of that replica's last executed key exchange that is in force there (from the second checkpoint after its generation on), and that replica signs with the matching secret, whatever restarts and state transfers happened in between; a replica that has not yet executed an exchange is not surprised by it inside its window; key exchanges are not replaced and cannot be made by others.", "quantifier": "all histories of key exchanges executed at all sequence numbers by clusters of any size, all crash points, restarts and state transfers, all byte strings sent as key exchange requests", "why_tests_cant": "histories, positions of restarts and orders of exchanges around checkpoints are unbounded; a test runs one or two exchanges on replicas that stay up", "anchors": ["bftengine/src/bftengine/KeyExchangeManager.cpp: onKeyExchange, notifyRegistry, loadPublicKeys, generateConsensusKeyAndSendInternalClientMsg", "bftengine/src/bftengine/KeyStore.cpp: saveReplicaKeyStoreToReserevedPages, loadReplicaKeyStoreFromReserevedPages", "bftengine/include/bftengine/CryptoManager.hpp: onPrivateKeyExchange, onPublicKeyExchange, get, create", "libs/util/serializable.hpp", "bftengine/src/bftengine/RequestHandler.cpp: execute"]}
{"id": "C41", "title": "Reserved pages and checkpoints of the state transfer module", "statement": "A reserved page always reads as the bytes saved to it last, filled up with zeros. A checkpoint is an immutable picture of all pages and of the block data at the moment it was created: as long as it is among the configured number of last checkpoints its digest and every one of its pages can be read unchanged, whatever pages are saved, checkpoints created or deleted later. A crash at any point followed by a start passes all consistency checks and finds exactly the same pages, pending pages and checkpoints. Replicas that saved the same pages between the same checkpoints have the same digests. A replica asked for the pages of such a checkpoint sends exactly the pages changed since the checkpoint that the other replica has, in chunks that join to one block; a block from a correct replica is accepted and gives the same digest and pages; a wrong block changes nothing. Saving, checkpointing, collecting and starting never fail an assertion.", "quantifier": "all histories of saves, checkpoints, collections, installations, requests of other replicas, writes of other modules and crashes, all page counts, page sizes, contents, digest functions and checkpoint numbers", "why_tests_cant": "histories and crash points are unbounded, and the versions of a page that are kept and deleted depend on the whole history; tests run a few checkpoints in memory", "anchors": ["bftengine/src/bcstatetransfer/BCStateTran.cpp: saveReservedPage, loadReservedPage, createCheckpointOfCurrentState, deleteOldCheckpoints, getDigestOfCheckpoint, onMessage(FetchResPagesMsg), createVBlock, checkConsistency", "bftengine/src/bcstatetransfer/InMemoryDataStore.cpp", "bftengine/src/bcstatetransfer/DBDataStore.cpp", "storage/src/merkle_tree_key_manipulator.cpp"]}
{"id": "C42", "title": "Checkpoint stability and the start of state transfer", "statement": "Through every sequence of checkpoint messages, executions, timer polls, requests, state transfers and restarts: no assertion of the checkpoint code fails; the last stable sequence number is a checkpoint, never decreases, is never ahead of the executed one and never more than the work window behind it; it moves exactly when a checkpoint is reported stable, and that needs a quorum of 2f+c+1 replicas (this one included) that signed one content, a fast-path proof 75 later, or state transfer; a checkpoint is super stable only if all n replicas vouch for it; state transfer is asked for only if f+1 distinct replicas said in signed stable messages that a checkpoint ahead is stable; a replica never sends two contents for one checkpoint in its own name, restarts included, and passes on only what it received; a restart keeps both numbers and the own messages and sends the last one again; once the replica signed a checkpoint in its window and 2f+c others' equal messages arrived, it is stable. A read-only replica fetches state exactly when 2f+c+1 distinct replicas' first messages agree.", "quantifier": "every configuration with f ≥ 1, every interleaving of events and answers of the other modules, every content of messages that pass validation, every restart point", "why_tests_cant": "The order of messages against the own execution, epochs, windows and restart points is unbounded; tests drive one order with honest peers.", "anchors": ["bftengine/src/bftengine/ReplicaImp.cpp: onMessage<CheckpointMsg>, onSeqNumIsStable, onSeqNumIsSuperStable, tryToMarkSeqNumAsStable, sendCheckpointIfNeeded, onTransferringCompleteImp", "bftengine/src/bftengine/CheckpointInfo.hpp", "bftengine/src/bftengine/ReplicaLoader.cpp", "bftengine/src/bftengine/ReadOnlyReplica.cpp: onMessage<CheckpointMsg>"]}
{"id": "C43", "title": "Pruning deletes exactly what the operator ordered and every correct replica agreed to", "statement": "A block disappears from a replica's chain only if the replica has executed a prune request signed by the operator that carries exactly one correctly signed answer of every replica of the configuration, all for that block or a later one, and every correct replica really gave such an answer; the answers accepted are exactly those (one per replica, valid signature, sender no replica) and the smallest one counts. While no unwedge status has been signed, a replica that has pruned keeps more than numBlocksToKeep blocks. If no batch has two prune requests, then through every schedule of requests, background deletion and crashes (categorized and v4 chain) the first block of an idle replica follows the largest agreed block of the accepted requests it executed, so replicas at the same position have the same first and last block; the deletion ends and never terminates the process; a replayed request deletes nothing; with pruning switched off nothing is deleted.", "quantifier": "every configuration, every log of batches with arbitrary requests, every interleaving of ordering, answers, execution, deletion steps and restarts, every set of faulty replicas that leaves one correct", "why_tests_cant": "Deletion runs in a background thread that a crash can cut at every block; the interleavings with later requests, replays and restarts and the choices of faulty replicas are unbounded.", "anchors": ["kvbc/src/pruning_handler.cpp: PruningSigner, PruningVerifier, PruningHandler", "kvbc/src/categorization/blocks_deleter_adapter.cpp: deleteBlocksUntil", "kvbc/src/v4blockchain/detail/blockchain.cpp: deleteBlocksUntil", "kvbc/src/reconfiguration_kvbc_handler.cpp: handle(PruneRequest)", "kvbc/src/st_reconfiguration_sm.cpp: pruneOnStartup"]}
{"id": "C44", "title": "A reconfiguration command has effects only with the signature it needs, and the same on every replica", "statement": "The stop point moves exactly when the operator has signed a request whose command stops the system, and then to the second checkpoint after it; every operator command is recorded on the chain under its keys and only operator-signed requests change those records or start actions (snapshots excepted). A record of a client's or replica's own key, scaling or restart changes only by a request with that number that verifies under that principal's key in force. The verification key of a client changes only by a key exchange its sender has signed, only for clients it names, and after any history every key, record, stop point and action goes back to such a request; keys of replicas never change this way. Leaving all requests without a valid signature out of a history changes none of this. Without client services no request ends the process. Replicas that execute the same ordered requests agree, provided read-only requests carry neither the reconfiguration nor the key-exchange flag.", "quantifier": "every configuration of classes of ids, signature scheme and groups, every state, every request and every history of requests; every interleaving of ordered and harmless read-only requests", "why_tests_cant": "Authority is a property of all histories: keys change during a history and requests are authorised by the keys then in force; tests only try chosen requests with chosen signatures.", "anchors": ["libs/reconfiguration/src/dispatcher.cpp: Dispatcher::dispatch", "libs/reconfiguration/src/reconfiguration.cpp: BftReconfigurationHandler", "bftengine/src/bftengine/Reconfiguration.cpp: ReconfigurationHandler, ClientReconfigurationHandler", "kvbc/src/reconfiguration_kvbc_handler.cpp", "bftengine/src/bftengine/SigManager.cpp: verifySig, setClientPublicKey", "bftengine/src/bftengine/RequestHandler.cpp: execute", "bftengine/src/bftengine/ReplicaImp.cpp: executeReadOnlyRequest"]}
{"id": "C45", "title": "The system stops at one point, goes on only by a quorum, and a crash forgets neither", "statement": "After a stopping command is executed at sequence number s, no replica accepts or executes a request beyond the second checkpoint after s, a replica that reaches that point is stopped, and no replica is stopped without such a command. Replicas at the same position have the same stop point, epoch and records, except where one of them has already been lifted. A request behind a stop point is executed, or its result obtained by state transfer, only after a replica stopped there received an unwedge command with the required number of valid votes for its epoch or a later one; lifting adds one to the epoch, so the epoch is the number of stop points passed. A restart keeps stop point, epoch and records. From every state the stop point can be reached.", "quantifier": "every log of commands and requests, every interleaving of acceptance, execution, stable checkpoints, restarts, unwedge commands and state transfers on any number of replicas (positive part: without install commands, and with state transfers within the epoch or to a state without a pending stop)", "why_tests_cant": "The stop point depends on which command came last, on the window, on restarts and on the order of commands, lifts and transfers on different replicas; that nobody is beyond it is a statement about all interleavings.", "anchors": ["bftengine/src/bftengine/ControlStateManager.cpp setStopAtNextCheckpoint", "bftengine/include/bftengine/ControlHandler.hpp", "bftengine/src/bftengine/ReplicaImp.cpp isSeqNumToStopAt, executeNextCommittedRequests, onSeqNumIsStable, onSeqNumIsSuperStable", "kvbc/src/Replica.cpp handleWedgeEvent, handleNewEpochEvent", "kvbc/src/st_reconfiguration_sm.cpp stCallBack", "kvbc/src/reconfiguration_kvbc_handler.cpp handle(UnwedgeCommand)"]}
{"id": "C46", "title": "A correct replica changes its view only for cause", "statement": "With at most f faulty replicas, for every view u below a view that a correct replica has ever been in, a correct replica was inside u and asked to leave it, or the rotation timer of a correct replica that left u had run out, or the primary of u is faulty. So if the primary of u is correct, no correct replica asks to leave it and rotation is off, nobody correct ever goes beyond u, whatever the faulty replicas send, repeat or attach to the messages of others. A correct replica asks because of a timeout only in a view for which 2f+2c+1 replicas signed a view-change message; it works in a view only after such a quorum. The complaints it holds are about its view, signed, of different replicas; the f+1-st makes it leave, and f+1 other replicas known to be in view w or above bring it to w. Only a restart brings it to a lower view.", "quantifier": "every number of replicas, every set of at most f faulty ones, every order, repetition and loss of messages, every firing of timers, every overlap with executions and state transfer, every crash and restart", "why_tests_cant": "Chains of view changes caused by combinations of complaints, forwarded complaints, primary requests and catching up over many replicas are not enumerable, and the adversary chooses them.", "anchors": ["bftengine/src/bftengine/ReplicaImp.cpp: onMessage<ViewChangeMsg>, onMessage<ReplicaAsksToLeaveViewMsg>, MoveToHigherView, askToLeaveView, onViewsChangeTimer, handleDeferredRequests", "bftengine/src/bftengine/ViewsManager.cpp: processComplaintsFromViewChangeMessage, computeCorrectRelevantViewNumbers", "bftengine/src/bftengine/ReplicasAskedToLeaveViewInfo.hpp"]}
{"id": "C47", "title": "The primary's queue and batches", "statement": "Requests accepted by a primary wait in a queue of at most 1500, in order. A PrePrepare the primary sends is not empty, contains no request twice, only requests that clients sent and that were neither in process nor answered, and never exceeds the maximal message size; it is built only by the primary of an active view, not during state transfer or a stop, and its sequence number lies in the window and within the concurrency level. A request stays in at most one batch until it is executed or cleared. Sequence numbers given out grow; a correct primary never sends two PrePrepare messages for the same view and sequence number; no accepted request is lost; no assertion fails; a batch that is due under the configured policy is proposed.", "quantifier": "every history of requests (any sizes, duplicates), timers, executions, stable checkpoints, state transfers, view changes, control commands, batches finished by worker threads in any order, and every batching policy and configuration", "why_tests_cant": "The interesting cases are combinations of queue contents that do not fit a message, batches that are with a worker thread while the view, the checkpoint or the control state changes, and duplicates that arrive between two batches.", "anchors": ["bftengine/src/bftengine/ReplicaImp.cpp: checkSendPrePrepareMsgPrerequisites, removeDuplicatedRequestsFromRequestsQueue, addRequestToPrePrepareMessage, buildPrePrepareMessage, startConsensusProcess, tryToSendPrePrepareMsg", "bftengine/src/bftengine/RequestsBatchingLogic.cpp: batchRequests", "bftengine/src/bftengine/messages/PrePrepareMsg.cpp: PrePrepareMsg, addRequest"]}
{"id": "C48", "title": "Messages between replicas are taken as they were sent", "statement": "A replica accepts a message of another replica exactly if its bytes are what the constructor of that type writes for some content, whose epoch is this replica's, whose sender and signer are replicas other than itself with the role the type demands (primary of the view, collector), whose signature verifies over the signed fields, and which satisfies the type's own conditions; the content it then reads is that content. Everything else is rejected: no message, whatever its bytes, makes the receiver read outside of it or stop. What a status report lists is read as it was marked, bit by bit.", "quantifier": "every byte string up to the maximal message size, every sender, every group size and configuration, every content with or without span context, every set of marks in a status report", "why_tests_cant": "The bytes come from faulty replicas; lengths and counts inside of messages select what is read, and their combinations cannot be enumerated.", "anchors": ["bftengine/src/bftengine/messages/SimpleAckMsg.cpp, StartSlowCommitMsg.cpp, ReqMissingDataMsg.cpp, SignedShareMsgs.cpp, PartialCommitProofMsg.cpp, FullCommitProofMsg.cpp, NewViewMsg.cpp, CheckpointMsg.cpp, AskForCheckpointMsg.hpp, ReplicaAsksToLeaveViewMsg.cpp, ReplicaRestartReadyMsg.cpp, ReplicaStatusMsg.cpp: validate and accessors", "bftengine/src/bftengine/messages/MessageBase.cpp", "bftengine/src/bftengine/MsgReceiver.cpp: onNewMessage"]}
{"id": "C49", "title": "Replicas restart only with evidence of a quorum", "statement": "After a stop that is to end in a restart, a replica restarts only once it has itself reached the agreed stop point and n - f (or all n, as the command says) different replicas have said, in validly signed messages for this stop, this reason and this epoch, that they are ready; the proof it sends to the others carries these messages, and every correct replica accepts such a proof and nothing less. Once enough replicas are ready, every replica restarts; no message makes it abort or read outside of the message.", "quantifier": "every history of readiness messages and proofs (any bytes, any order, repeated, of faulty replicas), stable and super stable checkpoints, commands, unwedging, and every group size", "why_tests_cant": "Restarts depend on the order in which messages and checkpoints arrive at each replica, on what is left from earlier stops, and on bytes chosen by faulty replicas.", "anchors": ["bftengine/src/bftengine/ReplicaImp.cpp: sendRepilcaRestartReady, sendReplicasRestartReadyProof, onMessage<ReplicaRestartReadyMsg>, onMessage<ReplicasRestartReadyProofMsg>", "bftengine/src/bftengine/messages/ReplicasRestartReadyProofMsg.cpp: addElement, validate, checkElements", "bftengine/src/bftengine/ControlStateManager.cpp: onRestartProof, checkForReplicaReconfigurationAction", "bftengine/include/bftengine/ControlHandler.hpp: onStableCheckpoint, onSuperStableCheckpoint, resetState"]}
{"id": "C50", "title": "Status reports: what a lagging replica reports missing is sent, and no more", "statement": "The answer of a replica to a status report of another replica is exactly what it owes for the two states: PrePrepare messages of the primary for numbers that the other has neither executed nor received (window and the part of the log before it), view changes, new-view message and PrePrepare messages that the other needs to enter the common view, its view change for a replica in an older view, complaints the other lacks, its stable checkpoint for a replica behind, its own report if the other is ahead; never an assertion failure or a read outside of the report. A report, whatever its bytes, never makes its receiver send more than what it holds for it, and never stops it.", "quantifier": "all pairs of states of the two replicas, all sizes of the group, all byte strings of any sender", "why_tests_cant": "The answer depends on two windows, views, phases of a view change and bit lists of two replicas at once; tests set up a few of these combinations, and a hostile report has arbitrary bytes", "anchors": ["bftengine/src/bftengine/ReplicaImp.cpp: ReplicaImp::onMessage<ReplicaStatusMsg>, tryToSendStatusReport", "bftengine/src/bftengine/ViewsManager.cpp: fillPropertiesOfStatusMessage, getViewChangeMsgsForView, getPrePrepare, getMyLatestViewChangeMsg", "bftengine/src/bftengine/messages/ReplicaStatusMsg.cpp", "bftengine/src/bftengine/SequenceWithActiveWindow.hpp"]}
{"id": "C51", "title": "Timers run when they are due, and not otherwise", "statement": "A callback registered with a timer runs in every evaluation at whose time the timer is due, once per evaluation, and never before it is due; a one-shot timer runs at most once in its life, a recurring one no sooner than its duration after it ran last; a cancelled timer never runs again, a reset one waits its new duration; handles are never given out twice. Callbacks may use the timers themselves.", "quantifier": "all histories of adding, resetting, cancelling and evaluating, with all times (also going back), durations and callbacks that call the timers again", "why_tests_cant": "Tests evaluate a few timers with callbacks that count; which timers exist, what was reset when, and what callbacks do to the collection that is being walked over is a matter of arbitrary histories", "anchors": ["libs/util/Timers.hpp: Timers::add, reset, cancel, evaluate, find", "bftengine/src/bftengine/IncomingMsgsStorageImp.cpp: dispatchMessages", "bftengine/src/bftengine/ReplicaForStateTransfer.cpp: addOneShotTimer", "bftengine/src/bcstatetransfer/BCStateTran.cpp: onTimerImpl, addOneShotTimer"]}
{"id": "C52", "title": "Messages between the threads: exactly once, in order, none starves", "statement": "Every message that the queue of incoming messages takes is given to its handler exactly once; external messages in the order in which they were pushed, internal ones likewise. An internal message is always taken, an external one is refused only if 20000 wait; never more than 40000 are held. The dispatching thread sleeps or goes round idle only if nothing waits, and no stream of messages, internal or external, keeps any message from being handled.", "quantifier": "all interleavings of pushes of any number of threads with the dispatching thread, of any length", "why_tests_cant": "Whether a message is lost between the two pairs of queues, or overtaken, depends on where pushes fall between the steps of the dispatching thread", "anchors": ["bftengine/src/bftengine/IncomingMsgsStorageImp.cpp: pushExternalMsg, pushInternalMsg, getMsgForProcessing, popThreadLocal, dispatchMessages", "bftengine/src/bftengine/IncomingMsgsStorageImp.hpp"]}
{"id": "C53", "title": "Sequence numbers of requests grow whatever the clock does", "statement": "Every number returned by the generator of request sequence numbers of a client is greater than all numbers it returned before, and at least the current time in milliseconds times 2^22, whatever the clock does (standing still or set back), up to the year 2109 minus one millisecond per request; the generator never aborts. After a restart the numbers are greater than all of the process before if each clock reading is later than all earlier ones by more than (number of earlier requests)/2^22 ms; without that a number may be repeated.", "quantifier": "all sequences of clock readings, all lengths, restarts", "why_tests_cant": "Needs every pattern of clock jumps and runs beyond the 4 million numbers of a millisecond.", "anchors": ["client/bftclient/include/bftclient/seq_num_generator.h: SeqNumberGenerator::unique", "bftengine/src/bftengine/SimpleClientImp.cpp: SeqNumberGeneratorForClientRequestsImp"]}
{"id": "C54", "title": "Components have reserved pages of their own", "statement": "Components of a replica register numbers of reserved pages in any order and set them before the start of state transfer. After that, as long as each component uses only page numbers below the number it asked for, no use fails and every component reads exactly what it wrote to that page itself, as if it had pages of its own; processes with the same numbers place the pages identically, so after a state transfer each component continues with what its peer in the source wrote; using a page before the start ends the process. The number of pages asked for the clients manager is enough for the key and every reply of every client of the configuration.", "quantifier": "all sets of components, orders of registration, numbers of pages, histories of loads, saves and zeroing, all configurations", "why_tests_cant": "Tests use one fixed set of components in one link order; overlap shows only if two components use particular pages in a particular history.", "anchors": ["bftengine/include/bftengine/ReservedPagesClient.hpp: ResPagesClient", "bftengine/src/bftengine/ReplicaForStateTransfer.cpp: ReplicaForStateTransfer", "bftengine/src/bcstatetransfer/BCStateTran.cpp: loadReservedPage, saveReservedPage, zeroReservedPage", "bftengine/src/bftengine/ClientsManager.cpp: ClientsManager"]}
{"id": "C55", "title": "The source of state transfer", "statement": "A replica that fetches the state asks one of the other replicas at a time, its source, and no assertion about the choice fails. The replicas that vouched for the state are gone through without repetition; if at most f replicas are faulty and f+1 or more vouched, one of the first f+1 sources is correct, and one of any 2f+1 successive sources is, however sources were replaced (bad data, silence, rejection, rotation), with at most f+1 more for each change of the known primary in between. A silent source is sent a bounded number of requests and replaced in bounded time, so that a correct source is reached in bounded time while all sources are silent. A primary becomes known only after enough PrePrepares of one replica with no others in between.", "quantifier": "every history of calls, every value of the random generator, every set of faulty replicas, all times of ticks and messages", "why_tests_cant": "the choice is random and depends on the history of silence, bad data, rejections and PrePrepares; tests replace the generator or use three sources", "anchors": ["bftengine/src/bcstatetransfer/SourceSelector.cpp", "bftengine/src/bcstatetransfer/SourceSelector.hpp", "BCStateTran::processData", "BCStateTran::handleIncomingConsensusMessageImpl"]}
{"id": "C56", "title": "Ticks of the cron tables", "statement": "Internal ticks are generated for a component exactly when they are due: one each period since the last start or tick, while the last call for it was a start with a positive period, and none after a stop; isGenerating tells which; no timer is left over. When the replica gets an internal tick it sends a tick request exactly if its last request for the component has been given to the replica and is no longer pending: the external queue never holds more than one tick request of a component, and between two requests of a component the first reached the replica; requests reach it in order, each once, in bounded time whatever else arrives. (The last part holds as long as no request is refused by a full queue: after one refusal the component never ticks again, BUG125.)", "quantifier": "every history of starts, stops and evaluations at any times; every interleaving of internal ticks, other messages and turns of the thread that processes messages; every answer of the clients manager about what is pending", "why_tests_cant": "the throttle spans two queues, a callback and a table of pending requests; tests replace the queues and the clients manager by mocks", "anchors": ["ccron/src/ticks_generator.cpp", "ccron/include/ccron/ticks_generator.hpp", "InternalBFTClient::sendRequest", "IncomingMsgsStorageImp::pushExternalMsg", "concordUtil::Timers"]}
{"id": "C57", "title": "Handing work to the state-transfer threads", "statement": "A handoff runs the functions that are pushed to it on one thread: those of synchronous calls in the order of the calls, those of asynchronous calls in theirs, each at most once and nothing else; an asynchronous function is taken only if no synchronous one waits; a synchronous call returns only after its function was run, and always returns in a bounded number of turns of the consumer (also while the handoff is being stopped, and whatever is pushed meanwhile); the consumer never waits while a function is in the queue; stop ends the consumer after all functions that were pushed have been run. (Exceptions: a stop that comes between the consumer's look at the queue and its wait is lost and never returns, BUG127; a call made after the end of the consumer is never run, and a synchronous one blocks for ever, BUG128.)", "quantifier": "every interleaving of any number of pushing threads, of stop, of the consumer and of spurious wake-ups", "why_tests_cant": "lost wake-ups and overtaking depend on the interleaving of threads at single instructions, which a unit test does not control", "anchors": ["libs/util/Handoff.hpp: Handoff::push, Handoff::pop, Handoff::stop, PriorityQueue", "BCStateTran.cpp: incomingEventsQ_, postProcessingQ_"]}
{"id": "C58", "title": "The pool of buffers of state transfer", "statement": "A pool of n elements never gives an element to two holders: an element is given out exactly if fewer than n are held, and then the one that nobody has held for the longest time; it can be given back exactly by being held, once; a refused call changes nothing; the counters, empty and full tell how many are held. The source of a state transfer starts as many read jobs as are wanted and as the pool allows, its contexts are distinct buffers in the order of the jobs, giving one back never throws, and after clearing them the pool is full, as the assertions at the start of a cycle demand. (As long as no job throws: the callback of free rethrows what its comment says is ignored, and a clear that throws keeps contexts it has given back, BUG129.)", "quantifier": "every number of elements and every history of calls, also wrong ones (an element given back twice, never allocated, callbacks that throw)", "why_tests_cant": "a test has one history; a buffer with two owners shows only as wrong bytes of a block", "anchors": ["libs/util/SimpleMemoryPool.hpp: SimpleMemoryPool", "BCStateTran::getBlocksConcurrentAsync", "BCStateTran::clearIoContexts", "BCStateTran.cpp: finalizeContext, ioPool_"]}
