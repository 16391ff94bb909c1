# Design of the Lean model of vmware/concord-bft

## Trusted base

* The kernel of Lean 4.33.0.  No axioms are added.  The theorems of MANIFEST.json depend on at most `propext`, `Classical.choice` and
  `Quot.sound`; AXIOMS.md has the list per theorem (from `#print axioms`).  `decide +kernel` is used for concrete runs: it is evaluated
  by the kernel, not by compiled code.
* That the model is a faithful translation of the C++ code.  It is written by hand, from reading; nothing of /repo is executed.  Every
  definition cites the file and lines it models and says where it simplifies.
* Cryptography.  Hash functions are uninterpreted parameters: a theorem that needs it says "or here are two different inputs with the
  same digest", or takes freedom of collisions on the data concerned as a hypothesis.  Signatures are ideal predicates, except where the
  scheme itself is modelled (C10, C15, C36).
* RocksDB is a map with atomic write batches (C34 also has unsynced batches and power failures).
* Threads: an operation that holds a mutex is one step.  Where there is no lock, the interleaving is modelled (C32) or left out, as noted.

## Conventions

* A failed `ConcordAssert`, an exception that ends the process and undefined behaviour are distinct outcomes of the model (`none`,
  `abort`, `fault`, …), so that "never aborts" and "reads outside the buffer" can be stated.
* Where the unchanged code violates the English property, a theorem gives a concrete run of the model that violates it, and the property
  is proved as `_partial` under the missing hypothesis.  MANIFEST.json says `partial` then.
* Besides every theorem there is a concrete case that meets its hypotheses (`Examples`, `ex_meets`, …).
* seeded/LOG.jsonl lists the wrong programs the theorems were tried against, and what was tightened.

## Per property

The full statements are in properties.jsonl, the theorem names in MANIFEST.json.  Every directory has the model in files named after the component (each definition with file and lines), a separate specification where one is needed, the theorems, and examples that meet the hypotheses.

| id | property | status | lean/Verif/ | code modelled | proof | left out |
|---|---|---|---|---|---|---|
| C01 | Agreement: no two honest replicas commit different batches at one sequence number | partial | Consensus | ReplicaImp.cpp, ViewsManager.cpp, SeqNumInfo.cpp: pre-prepare, partial and full prepare and commit, fast path, view change, new view, stable points, execution; any number of faulty replicas up to f, arbitrary messages from them; crashes at any time with recovery as in ReplicaLoader.cpp and the constructor of ReplicaImp (`Crash.lean`) | inductive invariants over the history of messages | signatures are ideal (C10, C36 treat what the code really does); checkpoints as stable points only; state transfer |
| C02 | A committed batch survives every view change | partial | Consensus | ViewChangeSafetyLogic.cpp | quorum counting | threshold signatures ideal |
| C03 | View-change restrictions are a function of the set of view-change messages | partial | Consensus | ViewChangeSafetyLogic.cpp | permutation invariance of folds | as C02 |
| C04 | The view-change scan finds for each sequence number exactly the elements reported for it | proved | Consensus | ViewChangeSafetyLogic.cpp, the element iterators | refinement of the loop to a look-up per number | as C02 |
| C05 | The stable lower bound of a view change is vouched for by an honest replica | proved | Consensus | calcLBStableForView | sorting and counting | as C02 |
| C06 | View-change message validation admits exactly well-formed element lists | proved | VCBytes | ViewChangeMsg.cpp byte by byte with 32-bit arithmetic | soundness and completeness against a grammar of well-formed messages | signature check is a parameter |
| C07 | Active window behaves as a map over the current window | proved | Window | SequenceWithActiveWindow.hpp | refinement to a map | overflow of 64-bit numbers |
| C08 | Window history returns the items that most recently left the window | proved | Window | SequenceWithActiveWindow.hpp, history part | refinement to a map | as C07 |
| C09 | Message certificate becomes complete exactly at quorum of consistent messages | partial | Cert | MsgsCertificate.hpp | invariant over insertions | memory management |
| C10 | Threshold-signature collector only completes with enough distinct valid shares for one digest | partial | Collector | CollectorOfThresholdSignatures.hpp, EdDSAMultisigVerifier | invariant over events | EdDSA itself is ideal |
| C11 | Execution is in order, without gaps, and only of committed batches | proved | Exec | executeNextCommittedRequests and below | invariant | parallel execution thread is one step at a time |
| C12 | Crash during execution never loses or repeats a batch | partial | Exec | as C11 with persistent state and crashes between all writes, recovery in ReplicaImp::start | simulation of a crash-free specification | application is a deterministic function; blockchain as a list |
| C13 | A client request is executed at most once | partial | Exec, Clients | as C12 and ClientsManager | invariant; counterexamples | see C12 |
| C14 | Clients manager bookkeeping is per client and bounded | proved | Clients | ClientsManager.cpp with reserved pages | invariant over calls | RSI, public keys |
| C15 | Batch digest binds the batch contents | partial | PrePrepare | PrePrepareMsg.cpp, request framing and digest | byte level induction | hash and signature are parameters |
| C16 | Client accepts a result only with a full matching quorum | partial | Client | matcher.cpp, quorum_converter, MsgReceiver | invariant over replies | network, time-outs, batches |
| C17 | Consensus time is strictly monotonic and identical on all replicas | proved | Time | TimeServiceManager | induction over batches | 64-bit overflow |
| C18 | Cron actions fire deterministically per component and periodically | proved | Cron | cron_table, periodic actions | induction over ticks | crash inside a tick |
| C19 | Pre-execution result is agreed by f+1 replicas | partial | PreExec | RequestProcessingState, PreProcessResult* | invariant over events, byte level for signatures | request batching, the thread pool |
| C20 | Sparse Merkle tree root is a function of the key/value-hash contents | proved | Smt | sparse_merkle/* | refinement of batched nodes to a binary trie | storage is a map |
| C21 | Sparse Merkle tree root binds contents | partial | Smt | sparse_merkle/* | induction on the trie | hash is a parameter |
| C22 | Old tree versions stay readable until declared stale | proved | Smt | sparse_merkle/* with stale nodes and pruning | invariant over histories | as C20 |
| C23 | Versioned category: get(key, block) returns the value written at that block; getLatest the newest not deleted | proved | Kvbc | versioned, block-Merkle, immutable categories and the latest-keys tables | simulation by a map of versions | RocksDB is a map with atomic batches |
| C24 | Pruning the genesis block preserves the latest state | proved | Kvbc | as C23, deleteGenesisBlock | as C23 | as C23 |
| C25 | Deleting the last reachable block is an exact undo | proved | Kvbc | as C23, deleteLastReachableBlock | as C23 | as C23 |
| C26 | Blocks form a hash chain | proved | Chain | kv_blockchain.cpp, blocks.cpp, raw blocks and digests | invariant over histories, injectivity of the encoding | hash is a parameter |
| C27 | State-transfer blocks link only when contiguous, and end with the same state as the source | proved | Chain | state transfer chain, linking, pruning on linking | simulation of the source | v4 |
| C28 | CMF messages round-trip and decoding is total | proved | Cmf | generated serializers (messages/compiler) | structural induction over message types | generated code of other languages |
| C29 | Range validation tree root depends only on the blocks in range | proved | Rvt | RangeValidationTree.cpp | refinement to a window of blocks | serialisation |
| C30 | LRU cache returns only the last value put and evicts the least recently used | proved | Lru | lru_cache.hpp | refinement to a list | - |
| C31 | Primary rotation and collectors are deterministic and fair | proved | Replicas | ReplicasInfo.cpp | arithmetic | 16-bit overflow |
| C32 | Thin replica server: a subscriber gets every update it may see, once, in order, unless told otherwise | proved | Trs | thin_replica_impl, subscription_buffer, kvb_app_filter | interleaving semantics, invariants | gRPC, the producer of updates |
| C33 | Thin replica client accepts an update only when f+1 servers agree | proved | Trc | thin_replica_client.cpp, hashes | invariant over answers | Subscribe() without id |
| C34 | Metadata transactions are atomic | proved | Meta | PersistentStorageImp, DBMetadataStorage, descriptors, byte encodings | refinement to a record with transactions | threads |
| C35 | State transfer completes only to a checkpoint vouched for by f+1 replicas | proved | St | BCStateTran destination side, RVBManager, SourceSelector, data store | invariants over all message sequences, crashes at every iteration | source side, consistency checks, post-processing thread, time (chosen freely) |
| C36 | A vote is bound to one view, sequence number and digest | partial | Digest | digest_holder.hpp | bit level | hash collisions |
| C37 | The v4 blockchain's reads are a function of its history | partial | V4 | `kvbc/src/v4blockchain/v4_blockchain.cpp`, `detail/blockchain.cpp`, `detail/latest_keys.cpp`, `detail/st_chain.cpp`, `detail/categories.cpp`, `replica_state_sync_imp.cpp` (by block id) | History of all blocks as specification state (`Spec.Reads`, `Spec.latestAt`, `Spec.ChainOk`); executions `Reach` with crashes, interrupted starts (`RSteps`), pruning, compactions, state transfer and recovery; invariant `RunInv` by induction on `Reach`; recovery by an invariant on a partly reverted disk (`RInv`, `Mid`). | Categories added to an existing chain, tags of immutable keys, threads, a crash between the write of a linked block and its pruning, `linkUntilBlockId`, the synchronisation by sequence number, RocksDB itself. The recovery theorems exclude BUG57 by the hypothesis `held`. |
| C38 | Replica specific information reaches the client | partial | Rsi | `bftengine/src/bftengine/ReplicaSpecificInfoManager.cpp`, the replica specific part of `ClientsManager.cpp` (`allocateNewReplyMsgAndWriteToStorage`, `allocateReplyFromSavedOne`), `ClientReplyMsg.cpp`, `msg_receiver.cpp` | Bytes of the reply buffer, the messages and the stored records; cache of a process as a function of the history of records (`rsi_get`); the property is false of the code and refuted for every history, reply and information. | Reserved pages of the common part (C14), transactions of the metadata (C34), which handlers produce such information. |
| C39 | Client requests: what is received is what the client signed | partial | Req | `ClientMsgs.hpp`, `messages/ClientRequestMsg.{hpp,cpp}` (constructor, accessors, `validateImp`, `shouldValidateAsync`), `MsgReceiver.cpp::onNewMessage`, the entry checks of `ReplicaImp::onMessage<ClientRequestMsg>`, `ClientBatchRequestMsg.cpp`, `ClientPreProcessRequestMsg.cpp`, the entry of `PreProcessor::onMessage<ClientBatchRequestMsg>` / `<ClientPreProcessRequestMsg>`, `bft_client.cpp::createClientMsg`, `createClientBatchMsg` | Bytes with bounds-checked reads; a read outside of the message is the result `oob`, an assertion `abort`, a null pointer `null`. Round trip by the lemmas on little endian fields; soundness by inversion of `validate`; batches by induction over the elements. | The signature scheme and the tables of principals (parameters), thread pools, metrics, what is done with a request after it is queued (C11-C14, C19). |
| C40 | Rotation of consensus keys: who verifies with what | partial | Keys | `KeyExchangeManager.cpp` (constructor, `onKeyExchange`, `notifyRegistry`, `loadPublicKeys`, `generateConsensusKeyAndSendInternalClientMsg`), `KeyStore.{h,cpp}` with the bytes of its pages, `CryptoManager.hpp` (map of cryptosystems), `Cryptosystem::updateKeys/updateVerificationKey`, `serializable.hpp`, `KeyExchangeMsg.hpp`, the entry in `RequestHandler.cpp` | State of one replica with its pages, file of secrets, candidates in memory and map of cryptosystems; runs of generation, execution, restart and state transfer. Each cryptosystem has the last key in force of the history: invariant over `create` + change, and a second one over the replay in the order of the numbers (`Part`); codec round trip for the pages. | The signature schemes, client keys and TLS keys, epochs (fixed), metrics, how requests are ordered (C01, C11). |
| C41 | Reserved pages and checkpoints of the state transfer module | proved | Rp | `BCStateTran.cpp` (`saveReservedPage`, `zeroReservedPage`, `loadReservedPage`, `createCheckpointOfCurrentState`, `checkpointReservedPages`, `deleteOldCheckpoints`, `getDigestOfCheckpoint`, `startCollectingState`, installation of a virtual block, `onMessage(FetchResPagesMsg)`, `createVBlock`, cache of virtual blocks, the checks of pages and checkpoints at start), `InMemoryDataStore.cpp`, `DBDataStore.cpp` with the bytes of keys and values, `merkle_tree_key_manipulator.cpp` | State of memory and database; every history of operations (with crashes between transactions) refines a specification of current pages and immutable pictures: one invariant that relates memory to the specification (relevant version of a page at a checkpoint, covered versions deleted), one that relates the database byte by byte to memory, from which `start` is shown to rebuild the memory. The transfer composes serving, chunks, acceptance (C35 `checkV`). | Blocks and the range validation tree in the descriptors (C29, C35), `clearDataStoreData`, the initial transactions of `init`, timers, the io thread pool, the internal hash functions (parameters). |
| C42 | Checkpoint stability and the start of state transfer | partial | Ckpt | `ReplicaImp.cpp` (`onMessage<CheckpointMsg>`, `onMessage<AskForCheckpointMsg>`, checkpoint part of `onMessage<ReplicaStatusMsg>`, `sendCheckpointIfNeeded`, `tryToMarkCheckpointStableForFastPath`, `onTransferringCompleteImp`, `onSeqNumIsSuperStable`, `onSeqNumIsStable`, `tryToMarkSeqNumAsStable`, `finalizeExecution`, checkpoint part of the restart constructor), `CheckpointInfo.hpp`, `CheckpointMsg::equivalent`, `ReplicaLoader.cpp` (checks on the check window), `ReadOnlyReplica.cpp::onMessage<CheckpointMsg>`; certificate from C09 | Functions return `none` for a failed assertion; runs with arbitrary answers of the other modules and restarts from what was stored; one invariant (`Core`, `Inv`) that relates log, table, store and the ghost list of what was signed; each event is shown to succeed, keep it and justify its outputs (`StepOk`); progress by a second invariant over pieces of runs (`steps_prog`). | Deferred messages while an execution runs, reports about late replicas, the content of digests, other windows and view changes at stability, signatures (a message in this replica's name was signed by it), the descriptor of the read-only replica. |
| C43 | Pruning deletes exactly what the operator ordered and every correct replica agreed to | partial | Reconf/Prune* | `kvbc/src/pruning_handler.cpp` (signing text, both `verify`, both handlers, `agreedPrunableBlockId`, `pruneThroughBlockId`), `blocks_deleter_adapter.cpp::deleteBlocksUntil` with the checks of `KeyValueBlockchain::deleteBlock`, `v4blockchain/detail/blockchain.cpp::deleteBlocksUntil`, `ControlStateManager::setPruningProcess`, recording in `reconfiguration_kvbc_handler.cpp:805-816`, `st_reconfiguration_sm.cpp` (`pruneOnStartup`), the unwedge status text | Transition system of log, replicas, what correct replicas signed; the background job is a separate thread with one deleted block per step. Invariants: executed prefix and accepted requests bound the genesis block (`InvA`), what correct replicas signed bounds accepted numbers (`InvG`), no last block is deleted (`InvK`), pending job = stored request (`InvB`); verification loop proved equivalent to a permutation specification (`accepted_iff`); decimal text shown injective per replica. | Crash inside a batch (C12), block accumulation, state transfer of pruned blocks, the pruning status reply, tick-rate of other prune modes, what deletion does to keys (C23-C27, C37). |
| C44 | A reconfiguration command has effects only with the signature it needs, and the same on every replica | partial | Reconf/Auth* | `libs/reconfiguration/src/dispatcher.cpp::dispatch`, the `verifySignature` of every registered handler, the handlers of `reconfiguration_kvbc_handler.cpp` (operator, snapshot, internal, client, post), `bftengine/Reconfiguration.cpp` (both handlers), `KeyExchangeManager::onClientPublicKeyExchange`, `SigManager::{verifySig,setClientPublicKey}`, `ClientsManager::setClientPublicKey`, `ControlStateManager::setStopAtNextCheckpoint`, choice by flags in `RequestHandler.cpp::execute`, `executeReadOnlyRequest` | Dispatch as a loop over the handlers with verification, exceptions and failed assertions. `Frame` states what one request may change and is shown to be kept by every handler; custody theorems by induction over histories with the keys then in force; non-interference and agreement by one simulation relation `Sim` (states that differ in actions or in published keys). | Handlers of the application, bytes of requests (C28), time stamps and epochs in the blocks, contents of replies, what started actions do (C40, C43, C45), TLS keys. |
| C45 | The system stops at one point, goes on only by a quorum, and a crash forgets neither | partial | Reconf/Wedge* | `ControlStateManager::setStopAtNextCheckpoint`, `ControlHandler`, `isSeqNumToStopAt`, the places of `ReplicaImp.cpp` that use it (acceptance, execution, stable and super-stable checkpoints, completion of state transfer), `Replica::{handleWedgeEvent,handleNewEpochEvent}`, `StReconfigurationHandler::stCallBack` with its three handlers that stop, `handle(UnwedgeCommand)`, `handle(UnwedgeStatusRequest)`, execution of the four stopping commands | A transition system of any number of replicas with a shared log (agreement is C01/C11). The specification (`Pending`, `StopPoint`, `stopsBefore`) speaks of the log only. Invariant: chain, stop point, epoch of a replica are functions of its position, except directly after a lift; accepted PrePrepares lie within the window and, if a stop point is in force, before it (`second_window` is the reason why the second checkpoint is chosen). Lifts are traced back in the history (`reach_lifted`). Progress by construction of runs (`go_to`); the counterexamples are runs built with it. | contents of callbacks (messages, removal of metadata, restart), acceptance of requests by view change, the pruning flag of `isSeqNumToStopAt`, reuse of sequence numbers in a new epoch, signatures (a parameter) |
| C46 | A correct replica changes its view only for cause | proved | Leave | `ReplicasAskedToLeaveViewInfo.hpp`, `ViewsManager.cpp` (`add(ViewChangeMsg)`, `computeCorrectRelevantViewNumbers`, `storeComplaint*`, `processComplaintsFromViewChangeMessage`, `tryToJumpToHigherView...`, `prepareViewChangeMsgAndSetHigherView`), `ReplicaImp.cpp` (`onMessage<ReplicaAsksToLeaveViewMsg>`, `onMessage<ViewChangeMsg>`, `MoveToHigherView`, `askToLeaveView`, `onViewsChangeTimer`, `handleDeferredRequests`, the check of pre-processed results of a PrePrepare), start from stored state | Transition system of any number of replicas, any delivery order, repetition and loss; faulty replicas sign anything in their own name and attach any complaint list to any view-change message. Failing assertions end the process (`effect = none`). `Caused` (Spec.lean) speaks of the log of events. Invariant by induction over executions: a view that a correct replica reached has a cause for every lower view; the first correct replica beyond a view is the one that needs the cause. Order statistics (`le_correct_iff`, `le_agreed_iff`) by counting. | clocks (a timer may run out whenever its other conditions hold), NewViewMsg, what is needed beyond the quorum to enter a view (C01-C05), the protocol switched off, the contents of the messages (C06) |
| C47 | The primary's queue and batches | partial | Batch | `ReplicaImp.cpp` 396-530 (arrival at the primary), 562-970 (prerequisites, duplicates, building, sending), 1523-1540, 3112-3215, 3330-3430; `RequestsBatchingLogic.cpp` 49-164; sizes in `PrePrepareMsg.cpp` 131-205; clients manager of C14 | Transition system of one replica with the queue, the counter of bytes, batches in flight, and history of accepted, built and sent; `none` is a failed assertion. The effect of every build is summarised once (`Out`: popped prefix, sublist that is new, where it went) and the invariants (`Inv`: accounting; `Inv2`: window, numbers below the last used, distinct) follow by induction; at most once by the pending table of C14; progress by showing that a due queue with an admissible head builds a batch. | validation of the request, read-only requests (C13, C39), the time service (C17), the commit path, doubles of the adaptive policy (an arbitrary new limit), wrap of 32-bit sizes |
| C48 | Messages between replicas are taken as they were sent | partial | Wire | constructors, accessors and `validate` of `SimpleAckMsg`, `StartSlowCommitMsg`, `ReqMissingDataMsg`, `SignedShareMsgs`, `PartialCommitProofMsg`, `FullCommitProofMsg`, `NewViewMsg`, `CheckpointMsg`, `AskForCheckpointMsg`, `ReplicaAsksToLeaveViewMsg`, `ReplicaRestartReadyMsg`, `ReplicaStatusMsg`; `MessageBase`; `MsgReceiver.cpp::onNewMessage` | A message is its bytes and its sender; reads outside are the result `oob`, assertions `abort`, exceptions `reject`. The specification is the encoder of each type (`frame`: list of widths and values) and a structure `Valid` about the content; `receive_iff` says: accepted with content a iff a is valid and the bytes begin with the encoding of a. Every long message is of the form fields ++ rest (`open_msg`), on which the receiver is evaluated symbolically. Lists of status reports as sets of bits. | the signature scheme and tables of keys (parameters), the choice of the handler by type, PrePrepare messages (C15), view changes (C06), requests (C39), ReplicasRestartReadyProofMsg (C49), replies, TLS |
| C49 | Replicas restart only with evidence of a quorum | partial | Wire/ProofMsg, Evidence, Restarting, Restart* | `ReplicasRestartReadyProofMsg.cpp` (all), `ReplicaImp.cpp` 3531-3550, 3914-3974 and the ends of `onSeqNumIsStable`, `onSeqNumIsSuperStable`, `ControlStateManager.cpp` 57-90, `ControlHandler.hpp` 23-54, callbacks of `Reconfiguration.cpp::handleWedgeCommands` | The byte level: the loop over the elements is inverted (`loop_sound`) and evaluated on encodings (`loop_accepts`). The handlers: a transition system of one replica with any events; the specification `Heard` speaks of the history of received messages. Invariant `Good` (the table is sorted and every entry was heard); progress by induction over arriving messages; a late replica by an invariant that the count has been passed. | what the restart callbacks do, the ten seconds of sleep, removal of metadata, database checkpoints as the occasion for readiness (any occasion), epochs (fixed), loss of messages (a message that is lost is not in the history) |
| C50 | Status reports: what a lagging replica reports missing is sent, and no more | partial | Wire/Status* | `ReplicaImp.cpp` 2616-2868, `ViewsManager.cpp` 250-257, 396-447, 1006-1084, `SequenceWithActiveWindow.hpp` | The handler on the bytes of the report (decoder of C48) and a record of what the receiver holds; the specification `Owes` lists what is owed in terms of the two states. Each part of the handler is shown to send exactly its part of the list (`Sent`), using that the lists of a report arrive as they were written (C48). For arbitrary bytes: every part but that on views is total, and that one fails exactly on `Harmful` reports; lengths of loops give the bound. | the interval between reports, where the contents of the log and of the views manager come from (the record is arbitrary within `Node.Wf`), transport |
| C51 | Timers run when they are due, and not otherwise | partial | Timers | `libs/util/Timers.hpp` (all) | The vector with its capacity and the loop of `evaluate` by index, callbacks as arbitrary lists of calls on the same object. The specification is the log of an observer (`Spec.armed`, `Spec.Right`): which handles wait until when after a sequence of events, and when a log is right. One invariant relates the vector to the log, also in the middle of an evaluation (one-shot timers that ran are still in the vector); the consequences (at most once, never after a cancellation, spacing) follow from `Right` alone. | the steady clock (times are arguments), wrap of the 64-bit counter of handles, exceptions of callbacks; an `emplace_back` into free capacity is taken to leave the loop unharmed (formally it invalidates its end iterator) |
| C52 | Messages between the threads: exactly once, in order, none starves | proved | Inbox | `IncomingMsgsStorageImp.{hpp,cpp}` (`pushExternalMsg`, `pushInternalMsg`, `getMsgForProcessing`, `popThreadLocal`, the loop of `dispatchMessages`) | Executions are lists of steps: pushes (atomic under the mutex) and turns of the dispatching thread, which is split where it gives up the mutex in `wait_for`. Conservation and order by one equation on lists kept by each step; starvation by lemmas on prefixes (what is in the local queues stays there until handled; what waits is taken over after as many turns as there are local messages, plus one). | what handlers do (their pushes are pushes), callbacks `onMsgPopped` (part of the message), timers (C51), scheduling of the dispatching thread (turns are given), messages left at `stop` |
| C53 | Sequence numbers of requests grow whatever the clock does | proved | SeqGen | `seq_num_generator.h` 37-92, `SimpleClientImp.cpp` 658-704 | The state is a position on the line of numbers (`State.value`); each call moves it forward, by induction over the readings. | the system clock (its readings are arguments), the mutex, wrap of the milliseconds in 2109 |
| C54 | Components have reserved pages of their own | proved | Layout | `ReservedPagesClient.hpp` 33-145, `ReplicaForStateTransfer.cpp` 50-63, `BCStateTran.cpp` 687-759 as a map of pages; `ClientsManager` page numbers from C14, client ids from C31 | Processes are lists of operations; the specification is a machine with private pages (`Spec.answers`). The registry is a sorted list; ranges of different entries are disjoint by induction (`place_disjoint`); one invariant relates the shared pages to the private ones. A finished transfer replaces the pages by those of another process with the same numbers. | the order of `std::type_index` (any order), what the store of state transfer does with a page (C41), saves during a transfer (ignored by the code) |
| C55 | The source of state transfer | proved | Source | `SourceSelector.{hpp,cpp}`, `BCStateTran.cpp` 3343-3374, 3657-3675 as far as the choice of the source goes | Executions are lists of calls with the random values as arguments. A potential (bad replicas still to be tried, and f if no good one is left in the set) bounds the bad choices; it rises only when the known primary changes. Time: induction over the ticks, with the time of the last request and the count of requests in vain. | metrics, order of iteration over `std::set` (any random value), the thread on which PrePrepares arrive, what makes data bad (C35), `lastInBatch` in ticks (never set by the timer) |
| C56 | Ticks of the cron tables | proved | Ticks | `ccron/src/ticks_generator.cpp`, `ccron/include/ccron/ticks_generator.hpp`, `InternalBFTClient.cpp` 26-38, on top of `Timers.hpp` (C51) and `IncomingMsgsStorageImp.cpp` (C52) | Two machines. The timers: `evaluate` of C51 in closed form for recurring timers with callbacks that call no timer; a refinement relation to a plan (component -> next due time and period). The throttle: an invariant relates the set, the map and the two external queues to the trace; progress by a simulation that turns an execution of the throttle into one of the inbox of C52. | what becomes of a request after it left the external queue (the environment answers `isPending` arbitrarily), the thread and its poll period (rounds happen at any time), an evaluation is one step, wrap of 64-bit numbers, the contents of the tick request |
| C57 | Handing work to the state-transfer threads | proved | Handoff | `Handoff.hpp` 58-278 | Executions are lists of steps, a step being what happens between two acquisitions of the mutex (or the atomic store of `stop`). One invariant relates what was run, what runs and what is queued to the pushes, for both priorities; progress by counting the turns that are needed (`need`, `left`). | what the functions do, a synchronous push by the consumer itself (run on the spot), exceptions of functions (they end the process), `size`/`empty`, destruction while others push |
| C58 | The pool of buffers of state transfer | proved | Pool | `SimpleMemoryPool.hpp` 37-107, `BCStateTran.cpp` 1900-1926, 2246-2248, 3145-3146 | Histories are lists of calls. The two queues of the pool are a permutation of the elements; what is allocated is what the trace of the callers says they hold. For the source, the list of contexts is the list of allocated elements. | the contents of the buffers, the jobs themselves (only whether they throw), the alloc callback (null in the only use), the destructor |

## Findings

Found while modelling; those with a theorem name are proved of the model as concrete runs (or for all parameters).  The others are
observations from reading.

Consensus and view change
* BUG1 agreement across views, skew of stable points: a replica with a higher stable point leaves out certificates others still need
  (excluded by `GoodInstall` in `agreement_partial`).
* BUG2 `agreement_fails_with_cut_range`: null operations above the last request of the restricted range are cut off.
* BUG3 `agreement_fails_with_time_service`: a replica that refused the time of a pre-prepare still sends its commit, and leaves the
  batch out of its view change message.
* BUG9 `slow_commit_lost_with_shadow`, `agreement_fails_with_shadow`, `order_matters_with_shadow`: the set of certificates compares
  view and digest only, so an invalid certificate hides a valid one; with F + C = 0 one fast element decides.
* BUG24 `combination_eq_iff`, `null_vote_moves`, `agreement_fails_with_combined_votes`: the signed data of a vote is digest XOR view XOR number.
* BUG10 `self_double_count`; BUG11 `one_signer_forges`, `collector_accepts_forgery`; BUG12 (`maxShareID` one too large); BUG13
  `one_share_stalls`; BUG14 (share of wrong length fails an assertion).

Messages
* BUG7 `complaint_oob`, BUG15 `wrap_oob`, BUG16 `underflow_oob`, BUG17 `digest_oob` (ViewChangeMsg); BUG19 `reply_lengths_oob`;
  BUG25 `own_id_aborts`, BUG26 `wrapped_length_oob` (PrePrepareMsg); BUG38 `failed_reply_oob`, getCid unchecked (pre-execution).
* CMF: `decoding_not_canonical`, `duplicate_keys_dropped`, `bool_list_accepts_any`, `four_bytes_many_elements`; the tag of a oneof is
  8 bits wide and wraps at 256 alternatives; deserialize into an object that is not fresh appends.

Execution and clients
* BUG4 `duplicate_executed_twice`; BUG5 `equivocation`, `renumbered`, `same_digest_different_requests`; BUG6 `evicted_readmitted`,
  `replay_executed_twice`, `internal_executed_twice`; BUG20 `zero_seq_breaks`; BUG21 `index_in_batch_aborts`; BUG22 `special_lost`;
  BUG23 `first_block_stuck`, `stuck_forever`.  Replies of several pages are not written atomically; `requestOffset` is cut to 16 bits.
* BUG18 `one_faulty_reply_decides`, `comparator_not_weak_order`, `primary_only_trusts_one` (client).
* BUG35 `duplicate_hashes_cancel`, `duplicate_hashes_never_cancel`; BUG36 `bad_failed_signature_blames_primary`; BUG37
  `result_code_flipped`; BUG39 `short_signatures_accepted` (serious: an empty or short signature list passes); `error_consensus_wild_pointer`,
  `error_record_shifted`, `unknown_result_aborts` (pre-execution).
* Time: the documented maximum is not implemented (`not_documented_max`), equal times with epsilon 0, transferred batches not checked.
* BUG27 `transfer_diverges`, BUG28 `engine_never_runs_periodic`, `no_persist_reruns`, `addEntry_keeps` (cron).
* BUG29 `service_is_external`, `replica_is_external`; LRU of capacity 0 is undefined.

Storage
* BUG30 `root_does_not_bind_key`, `root_does_not_bind_presence`; a batch that only deletes absent keys leaves a version without root.
* BUG31 `delete_last_revives_pruned_leaf`; BUG32 `delete_and_put_lost_by_pruning`; BUG33 `prune_then_delete_last_loses_key`;
  `immutable_rewrite_lost`, `immutable_rewrite_loses_raw_block`; BUG34 `put_and_delete_breaks_the_chain`, `put_and_delete_merkle_aborts`.
* The digest of a block takes a 32-bit size (blocks from 4 GiB on are hashed partly); linking ignores the parent digest and roots of a raw
  block; pruning on linking reads 8 bytes of a key unchecked; putBlock of an identical block with lastBlock does not start linking.
* BUG44 `wrong_removal_undetected`, `same_sum_undetected`, `two_changes_undetected`; RVT_K = 1 loops for ever; a serialised tree with a
  missing root is a null dereference on remote data.
* BUG45 `failed_read_erases`; `inner_sync_lost`, `nesting_wraps`, `last_rsi_refused`, `object_count_wraps`; the 301st complaint fails;
  getDescriptorOfLastExecution inside a transaction resets the cached descriptor; a smaller configuration leaves old objects behind.

State transfer
* BUG46 `heap_overflow`, BUG47 `honest_source_refused` (a first block of a batch in more than one chunk is never accepted), BUG48
  `surplus_chunk_undefined`, BUG49 `read_only_summary_aborts`, BUG50 `page_number_unchecked`, BUG53 `resent_page_aborts`, BUG54
  `block_zero_aborts`.  BUG51 with f = 0 the certificate still needs two messages.  BUG52 the check that a received tree spans the blocks
  to be fetched compares the upper ends the wrong way round.
* A restart without stored tree data during fetching rebuilds the tree from blocks that are not there (assertion).  The highest block,
  if it is in the tree, is not compared with the digest of the checkpoint.  The first fetched block is not compared with the local chain.
  A crash in the finalizing state loses the completion callbacks.

Thin replica
* BUG40 `reader_race_aborts`, BUG41 `find_pruned_aborts`, BUG42 `skipped_block_lost`, `overrun_ends_ok`, `overrun_while_waiting_uncaught`,
  `block_zero_aborts`, `gap_ids_repeat`, `live_gap_lost`, `transition_skips_blocks`.
* BUG43 `type_confusion`, `one_server_aborts_client`, `one_server_ends_subscription`, `info_not_verified`,
  `pruning_mismatch_internal_error`, `resubscribe_uses_old_streams`.

v4 blockchain (`V4/Examples.lean`)
* BUG55 `multiGet_unsorted_throws`: `multiGet` with block ids 1, 2, 1 throws (`std::unique` on ids that are not sorted).
* BUG56 `failed_add_breaks_chain`: an `add` that throws leaves the digest of a block that never was in `future_digest_`; the next block
  carries it as its parent digest.
* BUG57 `no_snapshot_after_restart`, `recovery_loses_sequence_number`: after a restart the first new sequence number takes no snapshot (one is
  stored already), so a crash in the middle of it reverts the keys it touched to before the *previous* sequence number.  This is why
  `v4_recovered` asks that the process holds the snapshot it stored (`held`).
* BUG58 the state synchronisation by sequence number returns early, and the one by block id with limit 0, without removing the recovery DB:
  batches of an earlier crash are then used for later blocks with the same ids (`storeOne` keeps existing batches).  BUG59
  `exact_limit_throws`.
* A crash between `deleteFilesInRange` and the write of the genesis key leaves a genesis id without a block.  `addBlockToSTChain` of a block
  already received and marked as last returns before it links.  `BlockchainRecovery` logs and ignores exceptions, the failure then shows as
  an assertion in `deleteLastReachableBlock`.

Replica specific information (`Rsi/Theorems.lean`)
* BUG60 `rsi_restart_loses`, `rsi_load_overruns`: `RsiItem::deserialize` copies the data into an empty string without resizing it: memory
  is overwritten and every record is dropped at start.  BUG61 `rsi_first_reply_wrong`: the reply sent first carries the length of the
  information but not the information; the record is taken 28 bytes (a message header) too far.  BUG62 `rsi_resend_aborts`: resending
  a reply for which there is information fails an assertion.
* `init` sets the next index to the last one instead of the one after it, and looks at ids below the number of clients although client ids
  start after the replicas' (both hidden by BUG60).

Client requests on the wire (`Req/Findings.lean`)
* BUG63 `unknown_type_aborts`: a message whose type is 901 or more, from any connected sender, fails the assertion of the bitmap of message
  types: the replica aborts.
* BUG64 `replica_id_oob`, `forged_internal`: a request with the reconfiguration or internal flag and the id of a replica in its header returns
  from validation before its sizes are checked; any client can send one.  Its data is read outside of the message, and it is accepted unsigned
  as an internal request of that replica.  `short_request_oob`: with asynchronous validation the flags are read before the size is checked.
* BUG65 `preprocessed_flag_unsigned`: a request that carries the pre-processed flag is not verified, whoever sent it.
* BUG66 `empty_signed_refused`: a signed request with empty data (which the client library builds) is refused by every replica.
* BUG67 `batch_oob`: the validation of a batch reads the headers of the elements without looking at the end of the message.
* BUG68 `batch_null`, `preprocess_null`: the client id in the header of a batch is compared with nothing and indexes a map of external clients
  whose null entry is used; a single request for pre-execution of a client service or proxy does the same.

Rotation of consensus keys (`Keys/Findings.lean`)
* BUG69 `restart_forgets_secret`, `restart_signs_with_old_key`: a restart rebuilds the cryptosystems from all public keys first and then puts each
  secret only into the checkpoint at which it was exchanged; the later cryptosystems, made by exchanges of other replicas, keep the *configured*
  secret.  The replica's shares no longer verify.
* BUG70 `crossed_exchanges_diverge`: `create` copies the last cryptosystem even if the new one comes before it, so two exchanges around a
  checkpoint that are executed in the opposite order of their numbers revert one key and activate the other too early; a replica that is restarted
  replays them sorted and disagrees with the others.
* BUG71 `crash_loses_secret`: the secret of an announced key is only in memory; a crash before the exchange is executed leaves the replica with the
  new public key and the old secret for good.
* BUG72 `client_installs_key`, `client_stops_replica`: key exchange requests are not authenticated; any client sets the key of any replica, or stops a
  replica that waits for its own exchange.
* BUG73 `early_key`: the check of the age of a key uses the work window (300) of the batch, so a key can come into force in the window of a
  replica that has not executed the exchange.
* BUG74 `page_full`: keys are never removed and all keys of a replica share one reserved page; the 51st exchange fails an assertion on all replicas.
* BUG75 `unknown_replica`: the replica id of an exchange is not checked; the verification key is written outside of the array.
* BUG76 `garbage_stops_replicas`, `long_string_stops_replicas`: bytes that do not deserialize throw out of the execution of a committed request.
* BUG77 `transfer_aborts`: `exchanged()` allows one key less than the assertion in `loadPublicKeys`.
* BUG78 `empty_key_sent`: announcing again for a number after another exchange was executed sends an empty key and stops the replica later.

Reserved pages (`Rp/Chunks.lean`, `Rp/Examples.lean`)
* BUG79 `reexecution_diverges`: the checkpoint of the state transfer and the last executed sequence number are written in different transactions
  (ReplicaImp.cpp:5131-5170); after a crash in between the requests are executed again, their reply pages are saved again as pending, creating the
  checkpoint again is ignored (BCStateTran.cpp:608-615), and the pages get the version of the *next* checkpoint: its digest differs from all others.
* BUG80 `bad_chunk_number_faults`: `FetchResPagesMsg` with 65535 as last known chunk wraps to chunk 0, whose offset is 2^32 - maxChunkSize: any peer
  makes the replica copy memory outside of the block into an answer, or crash.
* Text only: `clearDataStoreData` deletes the flag `Initialized` first and the pages in later transactions, so a crash in between leaves stale pages
  that the next start finds; a crash between the two transactions of `init` makes the next start abort in `checkConfig`; `deleteCheckpointBeingFetched`
  deletes outside of its transaction, and a crash before the commit makes every later start abort in `checkConsistency`; a load of length zero aborts
  for a stored page but not for a pending one; more than 65535 chunks overflow the chunk counter.

Checkpoints (`Ckpt/Examples.lean`)
* BUG81 `stable_two`, `diverged_stable`: consequence of `self_double_count` (C09): with `f = 1` one message of one, possibly faulty, peer makes a
  checkpoint stable, and two honest replicas with different states can both hold checkpoint 150 as stable.
* BUG82 `super_three`: the same double count makes a checkpoint "super stable" (n/n) with n-1 replicas; a wedged system stops without the last one.
* BUG83 `fast_example`: on the fast path a checkpoint becomes stable without looking at any checkpoint message, even if other replicas reported
  another digest.
* BUG84 `super_before_stable`: `onTransferringCompleteImp` (ReplicaImp.cpp:3352-3369) adds the own message but only asks for super stability: after
  state transfer a complete certificate is not declared stable until another message comes (`quorum_makes_stable` excludes this case), while super
  stability is reported before stability.
* BUG85 `epoch_example`: entries of `tableOfStableCheckpoints` are dropped only if their epoch *equals* the current one (2351-2353): after an epoch
  change stale entries stay, and one message of one faulty replica (with f stale ones) starts state transfer.
* Text only: the test of the epoch in the first branch (2291-2294) is bypassed by the second (2306-2316): messages of older epochs are added to the
  certificate; read-only replicas keep certificates of any future sequence number in a static map without bound, and store the descriptor under the
  `state()` of an arbitrary message of the certificate (`msgs[0]`, ReadOnlyReplica.cpp:193).

* BUG86 `double_prune_terminates`: two prune requests in one batch (the same operator-signed one sent twice is enough, signatures carry no nonce): the
  second job waits for the first, then calls `deleteBlocksUntil` for blocks that are gone; it throws inside the background thread, `std::terminate`
  on every replica; the genesis test (pruning_handler.cpp:211) is done before the lock.
* BUG87 `epoch_vote_prunes`: the text signed in `LatestPrunableBlock` (`id‖block`) and in the unwedge status (`id‖epoch`) have no domain tag and use
  the same key: an unwedge status of epoch e is a valid agreement to prune through block e (and an answer 0 is an unwedge vote of epoch 0).
* BUG88 `hidden_by_bad`: the prune request is recorded in the chain before it is verified, and a restart handles only the latest: a rejected request
  in the same batch plus a crash makes a replica forget an accepted pruning; replicas then differ in their genesis block for ever.

* BUG89 `client_takes_over_another`, `own_key_only_false`: `ClientExchangePublicKey.affected_clients` is not related to the sender (Reconfiguration.cpp:331-360): any
  registered client can replace the verification key of any other client.
* BUG90 `unsigned_writes_file`, `unsigned_gets_success`: the POST handler verifies everything (`verifySignature` returns true): an unsigned `ClientExchangePublicKey`
  adds a block and overwrites the key file of the client group named as sender with a key of the attacker's choice; and unsigned commands are answered
  with success = true although no other handler accepted them.
* BUG91 `operator_command_replayed`: operator signatures cover no number, time or epoch: anyone who has seen a command can have it executed again.
* BUG92 `read_only_reconfiguration_diverges`, `read_only_reconfiguration_moves_stop`: a request with READ_ONLY and RECONFIG flags is executed by one replica outside
  consensus with all its effects (blocks, stop point): an operator's command replayed to one replica makes it diverge.
* BUG93 `client_service_ends_the_process`: `setClientPublicKey` accepts client-service ids, `verifySig` asserts that the id is a replica, external client or read-only
  replica (SigManager.cpp:256): one client that gives a service id a key lets any request naming that sender end the process of every replica.
* BUG94 `malformed_key_stored`: the key is stored in the reserved pages before it is parsed; parsing throws (the reply is a failure), and at the next start
  loading it throws again.
* Text only: sender ids are cut from 64 to 32 and 16 bits before verification; a RECONFIG request that is no valid CMF message throws in
  `RequestHandler::execute` outside the try block; an unsigned `PruneRequest` in a batch makes `has_pruning_request` skip the user requests of that batch.

* BUG95 `stop_missed`, `beyond_missed_stop`, `diverged`: `StReconfigurationHandler::handle(WedgeCommand)` (st_reconfiguration_sm.cpp:97-124) sets the stop point only if the own
  epoch equals the command's: a replica brought by state transfer from an earlier epoch into one with a pending stop takes over the epoch but not the stop point; it
  goes on beyond it, ignores the `UnwedgeCommand` because it has not stopped, lacks the block of the new epoch, and diverges.
* BUG96 `scaling_lost`: the callback by which a replica behind the global epoch rejoins in the new configuration (162-225) is removed by the wedge handler that runs right
  after it in the same `stCallBack`.
* BUG97 `install_lost`, `install_stale`: an `InstallCommand` is not recorded under the wedge key, so a restart forgets its stop point; and after any later state transfer the
  handler for install records sets that old stop point unconditionally: the replica accepts no request any more.
* BUG98 `callbacks_lost`: callbacks for the stop point are kept in memory only; a crash between the command and the stop point (or a state transfer to a checkpoint in
  between) loses them: no removal of metadata, no new epoch, no restart message, and n of n restart messages never come.
* BUG99 `one_vote_suffices`: `handle(UnwedgeCommand)` counts entries, not signers: one valid vote repeated lifts the stop; ids are not limited to replicas; votes of later epochs count.
* BUG100 `signs_without_stop`: `handle(UnwedgeStatusRequest)` signs also when there is no stop point: the votes can be collected before the stop.
* Text only: `handleNewEpochEvent` adds the block of the new epoch before it clears the flag: a crash in between adds one to the epoch twice. `RestartCommand` is not handled in
  `stCallBack`. `setStopAtNextCheckpoint(cp - 300)` with cp = 300 means "no stop point".

* BUG101 `agreement_fails_with_restart`: the current view is not stored. `MoveToHigherView` writes only the descriptor of the active view that is left, and a replica that starts
  outside of an active view comes back in `lastActiveView + 1` (ReplicaImp.cpp:4022-4034), although it may have sent view-change messages for higher views. It can then vote in
  the lower view, and its old message, which does not know these votes, can still start the higher view: one faulty replica and one crash make two honest replicas execute
  different batches at one number. `agreement_with_crashes_partial`: crashes that do not bring a replica back are harmless; `agreement_with_stored_view_partial`: storing
  the view repairs it. `restart_regress` says exactly when it happens.
* Text only: after a start the verdict on the time of a batch is forgotten (`isTimeCorrect_` is not stored): the replica signs a batch it had refused; and `resetAndFree` does not reset
  `isTimeCorrect_`, `addSelfMsg` does not set it: a primary that uses the slot of a refused batch again treats its own batch as refused.
* BUG102 `bug102_non_primary_changes_view`: the pre-processed results inside a PrePrepare are checked before the sender and the view of the message are (ReplicaImp.cpp:1063-1069, and 336-342 in the
  asynchronous path; `PrePrepareMsg::validate` leaves the sender to the caller), and a bad one makes the replica ask to leave its *current* view. One faulty replica that is not the
  primary can send such a message to everybody in every view and unseat one correct primary after the other; no timer is involved. `no_running_ahead` and `bad_batch_primary` hold of a
  program that compares the sender and the view first.
* BUG103 `bug103_stale_rotation`: `shouldGoToNextView_` survives an execution that ends while state transfer starts (`handleDeferredRequests` handles the flags only if no state is collected) and
  is acted upon at the end of an execution in a later view: that view is left although nothing happened in it.
* BUG104 `bug104_older_replaces_newer`: `ViewsManager::add(ViewChangeMsg*)` replaces the stored message of a replica by any other one above the pending view, also by an older one that somebody sends again.
* Text only: with the view-change protocol switched off, `onMessage<ReplicaAsksToLeaveViewMsg>` and the check of pre-processed results still lead to `MoveToHigherView`, whose first assertion then ends the process.
* BUG105 `lost_request`: `addRequestToPrePrepareMessage` (ReplicaImp.cpp:710-729) pops the request from the queue in every case, also when it does not fit into the room that is left in
  the message: when the queue exceeds one message, accepted requests vanish without being proposed, refused or kept. The client has to send them again. `nothing_lost_partial` says when nothing is lost.
* BUG106 `pruned_batch`: a batch finished by a worker thread while the replica prunes is thrown away (1533-1534); its requests stay pending, so retries are ignored until a view change.
* BUG107 `equivocates`: `startConsensusProcess` (870-950) gives a batch from a worker thread a new sequence number but does not compare its view: a batch of view v finished when this
  replica is the primary of view v+n is sent with view v and a sequence number of view v that was used before: a correct primary signs two PrePrepare messages for one view and number.
* BUG108 `stale_batch_aborts`, `stale_batch_aborts_view`: a batch in flight across a state transfer or a view entry may get a number outside of the window; `mainLog->get` then ends the process.
* Text only: `setCid` writes the new correlation id over the old one and reads past it if the sequence number got shorter; with an increase rate of 0.5 or more the limit of the adaptive policy can reach 0 and trips an assertion.
* BUG109 `Ready.receive_oob`: `ReplicaRestartReadyMsg::validate` (ReplicaRestartReadyMsg.cpp:66-70) computes the size it demands from a length at offset 27 before it tests the size: messages of 6 to 28 bytes are read past their end.
* BUG110 `NewView.receive_oob`: `NewViewMsg::validate` (NewViewMsg.cpp:70-79) adds the span context size (32 bits, from the message) in a `uint16_t`: the test of the size passes, and the elements
  are read where the span context size points, up to 4 GB beyond the message.
* Text only: `AskForCheckpointMsg::validate` compares its size the wrong way round (accepted iff *not longer* than header and span context); the epochs of `CheckpointMsg` and `ReplicaStatusMsg` are not compared.
* BUG111 `bug111_oob`: `ReplicasRestartReadyProofMsg::checkElements` (ReplicasRestartReadyProofMsg.cpp:106-116) passes data and signature of an element, with lengths from the element, to the verification before it compares these lengths with the remaining bytes: it reads up to 128 KB beyond the message.
* BUG112 `bug112_unsigned_proof`, `bug112_repeated`, `bug112_restart`: the elements of a proof need not be of different replicas, elements in the receiver's own name are not verified, their reason and epoch are not compared with those of the proof,
  and `onRestartProof` (ControlStateManager.cpp:57-78) compares the sequence number with nothing but 0: one faulty replica restarts every replica that is at the stop point.
* BUG113 `bug113_late_replica`, `bug113_run`: the count is compared with `==` (ReplicaImp.cpp:3545, 3935) and a completed count or a received proof is forgotten if the replica has not reached the stop point yet (ControlStateManager.cpp:62; `hasRestartProofAtSeqNum_` is set only together with the restart): a replica that is last never restarts, without any fault.
* BUG114 `bug114_stale`: `restart_ready_msgs_` is never cleared and sequence numbers are not compared: after an unwedge the messages of the earlier stop count for the next one (restart without the readiness of the others), and the proof with them is rejected by everyone.
* BUG115 `bug115_long_message`, `bug115_run`: a readiness message may be as long as the transport allows (bytes after the signature, extra data); `addElement` asserts that it fits into the proof: one faulty replica aborts all others.
* BUG116 `bug116_primary_stops`: a status report of the active view without the list of PrePrepare messages passes `validate`; the primary of the view then asks the list that is not there (`isPrePrepareInActiveWindow` asserts): one faulty replica aborts every primary.
* BUG117 `bug117_negative_view`: view numbers of status reports are not checked to be non-negative; a report with view -1 counts as older, and a replica in view 0 has no view change to send (`ConcordAssertNE(myVC, nullptr)`): one faulty replica aborts all others in the first view.
* BUG118 `bug118_overflow`: the last stable number of a report is not bounded; sums with the size of the window leave the 64 bits (undefined behaviour).
* BUG119 `add_in_callback_stops`, `cancel_in_callback_stops`: `Timers::evaluate` (Timers.hpp:140-149) walks over the vector with a range-based `for` while the callbacks may change it (the mutex is recursive). `BCStateTran::onTimerImpl`, called by the timer of state transfer, adds a one-shot timer
  (BCStateTran.cpp:1037, 3128 -> ReplicaForStateTransfer.cpp:162) when it runs on the same thread (`runInSeparateThread == false`: every read-only replica, kvbc/src/Replica.cpp:529): if the vector is full, the loop goes on over freed memory. Example: a read-only replica has three timers and room for four; the one-shot timer that asks for its successor finds it full.
* BUG120 `stray_exchange`, `exchange_beyond_all`: page numbers are not checked against the number a component asked for (ReservedPagesClient.hpp:104-116), and the replica id of a key exchange (which any client may send, BUG72) is the page number (KeyStore.h:53-58): an exchange for a replica that does not exist writes over the page of another component, e.g. that of the time service, or ends every replica if the page is beyond all.
* BUG121 `one_vote_takes_it`: `updateCurrentPrimary` compares the sender with the nominee only while the counter is below the limit (SourceSelector.cpp:243-251): after nine PrePrepares of the primary, one PrePrepare of any other replica makes that one the primary that is known.
* BUG122 `chatty_source_stays`: a piece of data that is already there counts as a sign of life (BCStateTran.cpp:2639, "ignoring added flag"), and data for blocks is taken whatever request it answers (2581): a faulty source that repeats one valid chunk, never marked as the last of a batch, is never replaced (`sourceReplacementTimeoutMilli_` is looked at only for the last of a batch): state transfer stands still.
* BUG123 `first_primary_preferred`: `removePreferredReplica(newPrimary)` may fill the set again before `currentPrimary_` is set (SourceSelector.cpp:260-264): the new primary is then a preferred source.
* BUG124 `never_out_of_sources`: the set is filled whenever it becomes empty, so `noPreferredReplicas()` is false in `processData` (BCStateTran.cpp:3363): the new cycle that should be started when all sources were tried for reserved pages never is; only a rejection starts one.
* BUG125 `refused_once_never_again`, `flood_silent`: `InternalBFTClient::sendRequest` ignores the result of `pushExternalMsg` (InternalBFTClient.cpp:35): if the queue is full, the callback that takes the component out of `pending_ticks_in_ext_queue_` is dropped with the message, and the component never ticks again until the replica restarts.
* BUG126 `primary_not_throttled`: at the primary a request waits in `requestsQueueOfPrimary` and is not pending until it gets into a PrePrepare (ReplicaImp.cpp:482-490, 716), unlike the diagram in ticks_generator.cpp:91-99: while the primary cannot send, each period adds one more tick request of the component to its queue.
* BUG127 `stop_lost`: `Handoff::stop` stores `stopped_` and notifies without the mutex (Handoff.hpp:170-174): if it comes after the consumer evaluated the predicate of `tasks_cond_.wait` (239) and before it waits, the notification is lost and `join` hangs (shutdown of state transfer).
* BUG128 `push_after_end_hangs`: `push` does not look at `stopped_` (Handoff.hpp:180-206): a synchronous call after `stop` blocks for ever, an asynchronous one is silently dropped.
* BUG129 `clear_wedged`: the free callback rethrows the exception of a dropped read job although its comment says that it is ignored (BCStateTran.cpp:276-279): one failed prefetch ends the source at its next `clearIoContexts`; the contexts given back before it would stay in `ioContexts_` (1922-1925), so that later clears throw at once and a new job could share a buffer.
