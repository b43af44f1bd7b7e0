{"id": "C01", "title": "Segment tree is an exact set of ids", "statement": "After any sequence of Insert calls on an initially empty segment tree, Contains(x) holds exactly for the inserted x, Count() is the number of distinct inserted ids, Insert returns true exactly when the id was new, and GetSegments() lists disjoint, non-adjacent, increasing half-open ranges whose union is the inserted set.", "quantifier": "every finite history of Insert calls with arbitrary ids", "why_tests_cant": "merging behaviour depends on the order and adjacency of all earlier inserts; tests sample a few orders", "anchors": [{"file": "yacl/utils/segment_tree.h", "symbol": "SegmentTree"}, {"file": "yacl/utils/segment_tree.h", "symbol": "SegmentTree"}]}
{"id": "C02", "title": "Segment-count test proves that ids 1..n all arrived", "statement": "If the set of received ids is reported as at most one segment and it contains 1 and n, then every id 1..n was received; this is the condition under which link close decides that nothing is in flight.", "quantifier": "every history of received ids and every n", "why_tests_cant": "the inference has to hold for every arrival order and every gap pattern", "anchors": [{"file": "yacl/utils/segment_tree.h", "symbol": "SegmentTree"}, {"file": "yacl/link/transport/channel.cc", "symbol": "Channel"}]}
{"id": "C03", "title": "Channel keys are decoded to exactly what was encoded", "statement": "For every user message key accepted by Send/Recv and every sequence number, splitting the wire key returns that user key and that sequence number; consequently two sends with different (key, seq) never share a wire key. A key containing the reserved separator is refused.", "quantifier": "all byte-string keys, all 64-bit sequence numbers", "why_tests_cant": "keys are arbitrary byte strings; the separator can appear in partial form", "anchors": [{"file": "yacl/link/transport/channel.cc", "symbol": "BuildChannelKey"}, {"file": "yacl/link/transport/channel.cc", "symbol": "SplitChannelKey"}, {"file": "yacl/link/transport/channel.cc", "symbol": "NormalMessageKeyEnforce"}]}
{"id": "C04", "title": "Each message is delivered at most once and unmodified", "statement": "Under any reordering and any duplication of transport requests, each (key, seq) message with seq > 0 becomes receivable at most once and Recv(key) returns exactly the bytes the peer passed to Send for that key.", "quantifier": "all interleavings, duplications and losses of transport requests, all Recv timings", "why_tests_cant": "retries re-send requests; exactly-once has to hold for every history", "anchors": [{"file": "yacl/link/transport/channel.cc", "symbol": "Channel"}, {"file": "yacl/link/transport/channel.cc", "symbol": "Channel"}, {"file": "yacl/link/transport/channel.cc", "symbol": "Channel"}]}
{"id": "C05", "title": "Chunked messages are reassembled exactly", "statement": "If all chunks of one message arrive, in any order and any number of times each, the message delivered is byte for byte the message sent, it is delivered once, and it is delivered only after every chunk has arrived.", "quantifier": "all messages, all positive chunk sizes, all arrival orders and duplications", "why_tests_cant": "the number of arrival orders is factorial in the number of chunks", "anchors": [{"file": "yacl/link/transport/channel.cc", "symbol": "ChunkedMessage"}, {"file": "yacl/link/transport/channel.cc", "symbol": "Channel"}, {"file": "yacl/link/transport/channel.cc", "symbol": "Channel"}]}
{"id": "C06", "title": "Chunk splitting covers the message exactly", "statement": "The chunks a large Send is split into are non-empty, each no larger than the configured maximum payload, do not overlap, and concatenated in index order give the message.", "quantifier": "all message lengths and chunk sizes", "why_tests_cant": "boundary sizes are unbounded", "anchors": [{"file": "yacl/link/transport/channel.cc", "symbol": "Channel"}]}
{"id": "C07", "title": "Chunk writes stay inside the reassembly buffer", "statement": "No sequence of chunked transport requests, including ones with inconsistent total lengths, makes the receiver write outside the reassembly buffer of the message.", "quantifier": "all sequences of chunk requests a peer can send", "why_tests_cant": "a hostile or buggy peer picks the fields freely", "anchors": [{"file": "yacl/link/transport/channel.cc", "symbol": "Channel"}, {"file": "yacl/link/transport/channel.cc", "symbol": "ChunkedMessage"}]}
{"id": "C08", "title": "Throttle window bounds unacknowledged messages", "statement": "With throttle window w > 0, whenever a throttled send returns, at most w of the messages sent so far on the channel are unacknowledged.", "quantifier": "all histories of sends and acks, all windows", "why_tests_cant": "the bound must hold for every ack timing", "anchors": [{"file": "yacl/link/transport/channel.cc", "symbol": "Channel"}]}
{"id": "C09", "title": "Closing a link loses no message", "statement": "When link shutdown returns normally on a side, every message the peer sent before its FIN has reached that side (was received by the user or acknowledged as unread), and every message this side sent has been acknowledged by the peer.", "quantifier": "all interleavings of the two sides' shutdown steps and of message/ack/fin delivery", "why_tests_cant": "shutdown is a distributed handshake; races are schedule dependent", "anchors": [{"file": "yacl/link/transport/channel.cc", "symbol": "Channel"}, {"file": "yacl/link/transport/channel.cc", "symbol": "Channel"}, {"file": "yacl/link/transport/channel.cc", "symbol": "Channel"}, {"file": "yacl/link/transport/channel.cc", "symbol": "Channel"}]}
{"id": "C10", "title": "Shutdown handshake cannot deadlock", "statement": "If both sides call shutdown and the transport eventually delivers every request, both shutdowns return; there is no reachable state in which both wait for each other.", "quantifier": "all reachable joint states of the two shutdown procedures", "why_tests_cant": "deadlocks show up only in particular interleavings", "anchors": [{"file": "yacl/link/transport/channel.cc", "symbol": "Channel"}]}
{"id": "C11", "title": "Send retry policy is bounded and faithful", "statement": "A send attempt is repeated exactly while the failure is retryable under the configured policy and fewer than max_retry retries were made; it succeeds iff some permitted attempt succeeds, at most max_retry+1 attempts are made, and every pause is at most the configured maximum interval.", "quantifier": "all retry options and all sequences of transport outcomes", "why_tests_cant": "the policy is a function of arbitrary error histories", "anchors": [{"file": "yacl/link/transport/channel.cc", "symbol": "Channel"}, {"file": "yacl/link/retry_options.h", "symbol": "RetryOptions"}]}
{"id": "C12", "title": "Retry options read from a descriptor mean what they say", "statement": "Each retry option set in the protobuf descriptor is the value used by the link, and each unset one takes the documented default.", "quantifier": "all descriptors", "why_tests_cant": "every combination of set/unset fields", "anchors": [{"file": "yacl/link/retry_options.h", "symbol": "RetryOptions"}]}
{"id": "C13", "title": "A synchronous Send that returns means the message was handed to the transport", "statement": "If Channel::Send returns without throwing then the transport accepted the message.", "quantifier": "all transport outcomes and configurations", "why_tests_cant": "depends on error timing inside the send thread", "anchors": [{"file": "yacl/link/transport/channel.cc", "symbol": "Channel"}, {"file": "yacl/link/transport/channel.cc", "symbol": "SendTask"}]}
{"id": "C14", "title": "Message ids of a context never collide", "statement": "Within one context, ids generated for collective operations and for point-to-point messages are pairwise distinct over the life of the context, and ids for different (source, destination) pairs are distinct.", "quantifier": "all histories of id generation and all world sizes", "why_tests_cant": "collisions would depend on counters and string forms", "anchors": [{"file": "yacl/link/context.cc", "symbol": "Context"}, {"file": "yacl/link/context.cc", "symbol": "Context"}]}
{"id": "C15", "title": "Child contexts get ids distinct from each other and from their parent", "statement": "Every Spawn / SubWorld call on a context yields a context id different from the parent's and from every other child's.", "quantifier": "all histories of Spawn and SubWorld calls with arbitrary ids", "why_tests_cant": "user supplied ids are arbitrary strings", "anchors": [{"file": "yacl/link/context.cc", "symbol": "Context"}, {"file": "yacl/link/context.cc", "symbol": "Context"}]}
{"id": "C16", "title": "Ring neighbours are consistent", "statement": "For every world size, rank and stride, NextRank and PrevRank are valid ranks and are inverse to each other.", "quantifier": "all world sizes, ranks and strides (including larger than the world)", "why_tests_cant": "unbounded arithmetic", "anchors": [{"file": "yacl/link/context.cc", "symbol": "Context"}, {"file": "yacl/link/context.cc", "symbol": "Context"}]}
{"id": "C17", "title": "Barrier: nobody leaves before everybody has arrived", "statement": "No party returns from Barrier before every party of the world has entered it.", "quantifier": "all world sizes and all schedules", "why_tests_cant": "interleavings grow exponentially with the number of parties", "anchors": [{"file": "yacl/link/algorithm/barrier.cc", "symbol": "Barrier"}]}
{"id": "C18", "title": "Broadcast gives every party the root's data", "statement": "After Broadcast every party holds the root's input; every non-root receives exactly one message and the tree is complete for every world size and root.", "quantifier": "all world sizes, roots and payloads", "why_tests_cant": "non powers of two and rotated roots are the risky cases", "anchors": [{"file": "yacl/link/algorithm/broadcast.cc", "symbol": "Broadcast"}]}
{"id": "C19", "title": "Gather, AllGather and Scatter put each party's data in its rank slot", "statement": "AllGather returns on every party the inputs in rank order, Gather does so on the root and returns nothing elsewhere, Scatter gives party i the root's i-th input.", "quantifier": "all world sizes, roots, payloads and schedules", "why_tests_cant": "data dependent on every rank", "anchors": [{"file": "yacl/link/algorithm/allgather.cc", "symbol": "AllGather"}, {"file": "yacl/link/algorithm/gather.cc", "symbol": "Gather"}, {"file": "yacl/link/algorithm/scatter.cc", "symbol": "Scatter"}]}
{"id": "C20", "title": "Collectives cannot deadlock", "statement": "In every reachable state of a collective run in which some party has not returned, some party can take a step.", "quantifier": "all world sizes, roots and schedules", "why_tests_cant": "deadlock freedom is a statement about all interleavings", "anchors": [{"file": "yacl/link/algorithm/barrier.cc", "symbol": "Barrier"}, {"file": "yacl/link/algorithm/broadcast.cc", "symbol": "Broadcast"}, {"file": "yacl/link/algorithm/allgather.cc", "symbol": "AllGather"}]}
{"id": "C21", "title": "Cuckoo index places every item exactly once", "statement": "If every Insert on a cuckoo index returned normally then every inserted item is stored exactly once, either in the stash or in a bin that is one of its own hash positions, and nothing else is stored; the consistency check passes.", "quantifier": "all item lists, all hash codes, all option values, all eviction histories", "why_tests_cant": "eviction chains depend on all hash values", "anchors": [{"file": "yacl/utils/cuckoo_index.cc", "symbol": "CuckooIndex"}, {"file": "yacl/utils/cuckoo_index.cc", "symbol": "CuckooIndex"}]}
{"id": "C22", "title": "Parallel loops cover the range exactly once", "statement": "parallel_for calls the body on half-open sub-ranges that partition [begin,end): every index is processed exactly once, for every grain size and thread count.", "quantifier": "all ranges, grain sizes and thread counts", "why_tests_cant": "boundary arithmetic over unbounded sizes", "anchors": [{"file": "yacl/utils/parallel.h", "symbol": "parallel_for"}, {"file": "yacl/utils/parallel.cc", "symbol": "_parallel_run"}]}
{"id": "C23", "title": "parallel_reduce equals the sequential reduction", "statement": "For an associative combine function that agrees with the range function on concatenated ranges, parallel_reduce returns the sequential result for every grain size and thread count.", "quantifier": "all ranges, grain sizes, thread counts, associative operations", "why_tests_cant": "number of splits is unbounded", "anchors": [{"file": "yacl/utils/parallel.h", "symbol": "parallel_reduce"}]}
{"id": "C24", "title": "Thread pool runs every submitted task exactly once, in submission order of start", "statement": "Tasks are started in FIFO order, every task accepted before shutdown is run exactly once before the destructor returns, and Submit after shutdown is refused.", "quantifier": "all histories of submit / worker / shutdown steps", "why_tests_cant": "schedules", "anchors": [{"file": "yacl/utils/thread_pool.cc", "symbol": "ThreadPool"}, {"file": "yacl/utils/thread_pool.h", "symbol": "ThreadPool"}]}
{"id": "C25", "title": "128-bit integers survive split and recombination", "statement": "Splitting a signed or unsigned 128-bit integer into halves and recombining gives the integer back, and vice versa; bit width and leading zero count agree with the value.", "quantifier": "all 128-bit values", "why_tests_cant": "2^128 values", "anchors": [{"file": "yacl/base/int128.h", "symbol": "MakeInt128"}, {"file": "yacl/base/int128.h", "symbol": "DecomposeInt128"}, {"file": "yacl/base/int128.cc", "symbol": "CountBitWidth"}]}
{"id": "C26", "title": "Serialized values deserialize to themselves", "statement": "SerializeVars followed by DeserializeVars returns the same tuple for integers, 128-bit integers, byte buffers, strings and vectors of these; distinct tuples of the same type have distinct encodings.", "quantifier": "all values of the supported types, all lengths", "why_tests_cant": "unbounded lengths with size-class boundaries", "anchors": [{"file": "yacl/utils/serializer.h", "symbol": "SerializeVars"}, {"file": "yacl/utils/serializer_adapter.h", "symbol": "pack"}]}
{"id": "C27", "title": "Pre-computed serialized size is the real size", "statement": "The size reported before serialization equals the number of bytes then written, so serialization into a fixed buffer of that size never overflows.", "quantifier": "all serializable values", "why_tests_cant": "size classes at 32/256/65536 and beyond", "anchors": [{"file": "yacl/io/msgpack/spec_traits.cc", "symbol": "HeadSizeOfStr"}, {"file": "yacl/io/msgpack/buffer.h", "symbol": "ShadowBuffer"}]}
{"id": "C28", "title": "Matrix transposes transpose", "statement": "Every 128x128 bit-matrix transpose implementation (naive, Eklundh, SSE2, AVX2, and whichever MatrixTranspose128 is compiled to) returns the matrix whose (i,j) bit is the (j,i) bit of the input, for arrays aligned to 32 bytes (as at every call in the library; the AVX2 variant cannot be used on others); applying it twice is the identity.", "quantifier": "all 128x128 bit matrices", "why_tests_cant": "2^16384 inputs", "anchors": [{"file": "yacl/utils/matrix_utils.cc", "symbol": "NaiveTranspose"}, {"file": "yacl/utils/matrix_utils.cc", "symbol": "EklundhTranspose128"}, {"file": "yacl/utils/matrix_utils.cc", "symbol": "SseTranspose128"}, {"file": "yacl/utils/matrix_utils.cc", "symbol": "AvxTranspose128"}]}
{"id": "C29", "title": "Circuit executor computes the circuit", "statement": "For every well-formed circuit and input assignment, executing and finalizing returns the values of the output wires under the boolean semantics of the gates; a gate's output depends only on wires already assigned.", "quantifier": "all circuits and inputs", "why_tests_cant": "unbounded circuits", "anchors": [{"file": "yacl/utils/circuit_executor.h", "symbol": "PlainExecutor"}, {"file": "yacl/utils/circuit_executor.cc", "symbol": "PlainExecutor"}]}
{"id": "C30", "title": "A reused circuit executor evaluates the new inputs", "statement": "Calling SetupInputs and Exec again on an executor gives the outputs for the new inputs.", "quantifier": "all histories of uses of one executor", "why_tests_cant": "state carried between runs", "anchors": [{"file": "yacl/utils/circuit_executor.h", "symbol": "PlainExecutor"}]}
{"id": "C31", "title": "SHA-256 circuit input is the FIPS padding", "statement": "The bits given to the SHA-256 circuit for a message of at most 55 bytes are the message padded per FIPS 180-4 followed by the initial hash value, in the circuit's bit order; longer messages are refused.", "quantifier": "all messages", "why_tests_cant": "all lengths and contents", "anchors": [{"file": "yacl/io/circuit/bristol_fashion.cc", "symbol": "BuiltinBFCircuit"}]}
{"id": "C32", "title": "A key-value store returns the last value written", "statement": "After Put(k,v) returns, Get(k) yields v until the next Put(k,_), and keys never written are reported missing.", "quantifier": "all histories of Put/Get", "why_tests_cant": "stateful", "anchors": [{"file": "yacl/io/kv/memory_kvstore.cc", "symbol": "MemoryKVStore"}, {"file": "yacl/io/kv/memory_kvstore.cc", "symbol": "MemoryKVStore"}]}
{"id": "C33", "title": "CSV data written is read back unchanged", "statement": "Rows whose fields contain no field or line delimiter are read back by the CSV reader exactly as written, in order, in batches of the requested size, and the total row count is the number written.", "quantifier": "all tables of delimiter-free fields, all batch sizes >= 1", "why_tests_cant": "unbounded tables", "anchors": [{"file": "yacl/io/rw/csv_writer.cc", "symbol": "CsvWriter"}, {"file": "yacl/io/rw/csv_reader.cc", "symbol": "CsvReader"}]}
{"id": "C34", "title": "CSV seek is equivalent to reading from the start", "statement": "After Seek(i) the next row read is row i, for any history of reads and seeks.", "quantifier": "all histories of Next/Seek", "why_tests_cant": "row-offset cache state", "anchors": [{"file": "yacl/io/rw/csv_reader.cc", "symbol": "CsvReader"}, {"file": "yacl/io/rw/csv_reader.cc", "symbol": "CsvReader"}]}
{"id": "C35", "title": "OT store slices are disjoint and stay inside the store", "statement": "Successive NextSlice calls return consecutive, disjoint windows inside the store; reading or writing index i of a slice touches exactly element offset+i; a request beyond the end is refused.", "quantifier": "all histories of slicing operations", "why_tests_cant": "stateful arithmetic", "anchors": [{"file": "yacl/kernel/type/slice_base.cc", "symbol": "SliceBase"}, {"file": "yacl/kernel/type/ot_store.cc", "symbol": "OtRecvStore"}]}
{"id": "C36", "title": "Copying COT blocks returns the slice's own blocks", "statement": "CopyCotBlkBuf returns the blocks of the slice it is called on.", "quantifier": "all stores and slicing histories", "why_tests_cant": "state dependent", "anchors": [{"file": "yacl/kernel/type/ot_store.cc", "symbol": "OtSendStore"}]}
{"id": "C37", "title": "IKNP extension produces correlated OTs", "statement": "For every number of OTs, every choice vector and every base OT consistent with the base choice bits, the receiver's j-th block equals the sender's block selected by choice bit j; in correlated mode the two sender blocks differ by the base choice vector.", "quantifier": "all sizes, choices, seeds and PRGs", "why_tests_cant": "2^n choices; batch boundaries", "anchors": [{"file": "yacl/kernel/algorithms/iknp_ote.cc", "symbol": "IknpOtExtSend"}, {"file": "yacl/kernel/algorithms/iknp_ote.cc", "symbol": "IknpOtExtRecv"}]}
{"id": "C38", "title": "KOS extension accepts honest runs and is correct", "statement": "With an honest receiver the KOS consistency check never fails and outputs satisfy the OT correlation.", "quantifier": "all sizes, choices, seeds, challenges", "why_tests_cant": "check is over all random challenges", "anchors": [{"file": "yacl/kernel/algorithms/kos_ote.cc", "symbol": "KosOtExtSend"}, {"file": "yacl/kernel/algorithms/kos_ote.cc", "symbol": "KosOtExtRecv"}]}
{"id": "C39", "title": "(n-1)-out-of-n OT gives all seeds but one", "statement": "After SGRR OT extension the receiver holds exactly the sender's n seeds except that position index is zero, for every n > 1 and index < n, also when n is not a power of two; the malicious check accepts.", "quantifier": "all n, index, seeds, PRFs", "why_tests_cant": "tree sizes unbounded", "anchors": [{"file": "yacl/kernel/algorithms/sgrr_ote.cc", "symbol": "SgrrOtExtSend"}, {"file": "yacl/kernel/algorithms/sgrr_ote.cc", "symbol": "SgrrOtExtRecv"}]}
{"id": "C40", "title": "Half-tree single-point COT is correct", "statement": "After GYWZ extension the sender and receiver vectors agree everywhere except at the receiver's index, where they differ by delta, for every n > 1 and index < n.", "quantifier": "all n, index, delta, seeds, hash functions", "why_tests_cant": "tree sizes unbounded", "anchors": [{"file": "yacl/kernel/algorithms/gywz_ote.cc", "symbol": "GywzOtExtSend"}, {"file": "yacl/kernel/algorithms/gywz_ote.cc", "symbol": "GywzOtExtRecv"}]}
{"id": "C41", "title": "KKRT OPRF: receiver and sender agree on the receiver's input", "statement": "The value the receiver obtains for its input in group i equals the sender's evaluation of group i on that input.", "quantifier": "all inputs, seeds, batch counts", "why_tests_cant": "all inputs", "anchors": [{"file": "yacl/kernel/algorithms/kkrt_ote.cc", "symbol": "KkrtOtExtSend"}, {"file": "yacl/kernel/algorithms/kkrt_ote.cc", "symbol": "KkrtOtExtRecv"}]}
{"id": "C42", "title": "Multi-point VOLE correlation", "statement": "After MpVole the outputs satisfy c = a*delta + b at every position, with a non-zero only at the chosen points, for every noise count and size.", "quantifier": "all parameters, points and base correlations", "why_tests_cant": "unbounded sizes", "anchors": [{"file": "yacl/kernel/algorithms/mp_vole.h", "symbol": "MpVoleSender"}, {"file": "yacl/kernel/algorithms/mpfss.cc", "symbol": "MpfssSend"}]}
{"id": "C43", "title": "LPN code reads only inside its input and is linear", "statement": "Every index used by the local linear code is smaller than the message length and encoding is xor-linear, so encoding preserves VOLE/COT correlations.", "quantifier": "all seeds/permutations, dimensions, lengths", "why_tests_cant": "random indices", "anchors": [{"file": "yacl/kernel/code/linear_code.h", "symbol": "LocalLinearCode"}]}
{"id": "C44", "title": "Distributed point function is a point function", "statement": "For every alpha and beta and all seeds, the two parties' evaluations at x sum to beta if x = alpha and to zero otherwise.", "quantifier": "all alpha, beta, x, seeds, PRGs, bit widths", "why_tests_cant": "2^64 points", "anchors": [{"file": "yacl/crypto/experimental/dpf/dpf.cc", "symbol": "DpfKeyGen"}, {"file": "yacl/crypto/experimental/dpf/dpf.cc", "symbol": "DpfEval"}]}
{"id": "C45", "title": "Full-domain DPF evaluation agrees with the point function", "statement": "DpfEvalAll writes at every position x the same share semantics: the two outputs at x sum to beta at alpha and zero elsewhere.", "quantifier": "all alpha, beta, seeds, early-termination levels", "why_tests_cant": "all positions", "anchors": [{"file": "yacl/crypto/experimental/dpf/dpf.cc", "symbol": "DpfEvalAll"}]}
{"id": "C46", "title": "Distributed comparison function is a comparison", "statement": "For every alpha, beta, x, the two parties' DCF evaluations sum to beta if x < alpha and to zero otherwise.", "quantifier": "all alpha, beta, x, seeds, PRGs", "why_tests_cant": "2^64 points", "anchors": [{"file": "yacl/crypto/experimental/dpf/dcf.cc", "symbol": "DcfKeyGen"}, {"file": "yacl/crypto/experimental/dpf/dcf.cc", "symbol": "DcfEval"}]}
{"id": "C47", "title": "Punctured PRF key evaluates like the full key off the punctured point", "statement": "For every key, punctured point p and point x != p the punctured evaluation equals the full evaluation; at p it is refused, and the punctured key does not contain the value at p's path.", "quantifier": "all keys and points", "why_tests_cant": "2^64 points", "anchors": [{"file": "yacl/crypto/experimental/dpf/pprf.cc", "symbol": "PprfPunc"}, {"file": "yacl/crypto/experimental/dpf/pprf.cc", "symbol": "PprfPuncEval"}]}
{"id": "C48", "title": "Secret sharing recovers the secret", "statement": "Any threshold-many shares with distinct evaluation points recover the secret modulo the prime; the number of shares supplied beyond the threshold does not matter.", "quantifier": "all primes, thresholds, secrets, coefficients, share subsets", "why_tests_cant": "all subsets", "anchors": [{"file": "yacl/crypto/experimental/vss/vss.cc", "symbol": "VerifiableSecretSharing"}, {"file": "yacl/crypto/experimental/vss/poly.cc", "symbol": "Polynomial"}]}
{"id": "C49", "title": "Commitment check accepts exactly the correct shares", "statement": "With the group order as modulus, VerifyCommits accepts a share iff its y equals the committed polynomial at x (modulo the order).", "quantifier": "all polynomials, shares", "why_tests_cant": "all shares", "anchors": [{"file": "yacl/crypto/experimental/vss/vss.cc", "symbol": "VerifyCommits"}]}
{"id": "C50", "title": "Sumcheck is complete and binds the final claim", "statement": "Running sumcheck on a multilinear polynomial with its true sum accepts for all challenges; running it with any other claimed sum rejects in the first round (honest prover).", "quantifier": "all polynomials, claims and challenges", "why_tests_cant": "all challenges", "anchors": [{"file": "yacl/crypto/experimental/zkp/sumcheck/sumcheck.cc", "symbol": "RunSumcheckProtocol"}]}
{"id": "C51", "title": "Zero check and one check are complete", "statement": "The zero check accepts the all-zero table and the one check accepts the all-one table for all challenges.", "quantifier": "all sizes, challenges", "why_tests_cant": "all challenges", "anchors": [{"file": "yacl/crypto/experimental/zkp/sumcheck/sumcheck.cc", "symbol": "RunZeroCheckProtocol"}, {"file": "yacl/crypto/experimental/zkp/sumcheck/sumcheck.cc", "symbol": "RunOneCheckProtocol"}]}
{"id": "C52", "title": "Threshold proxy re-encryption decapsulates to the same key", "statement": "Decapsulation by the delegator, and by the delegatee from any threshold many re-encrypted fragments, give the key produced by encapsulation.", "quantifier": "all keys, randomness, thresholds, fragment subsets", "why_tests_cant": "all subsets", "anchors": [{"file": "yacl/crypto/experimental/tpre/capsule.cc", "symbol": "Capsule"}, {"file": "yacl/crypto/experimental/tpre/keys.cc", "symbol": "Keys"}]}
{"id": "C53", "title": "Searchable index returns every stored entry", "statement": "TSetRetrieve with the tag of a keyword returns exactly the entries stored under it by TSetSetup (no label collisions).", "quantifier": "all databases", "why_tests_cant": "unbounded posting lists", "anchors": [{"file": "yacl/crypto/experimental/sse/tset.cc", "symbol": "TSet"}, {"file": "yacl/crypto/experimental/sse/tset.cc", "symbol": "TSet"}]}
{"id": "C54", "title": "Cached PRG is the key stream", "statement": "The k-th value produced by a Prg with a given seed is the k-th value of the key stream of that seed, independent of batch size.", "quantifier": "all seeds, batch sizes, k, output types", "why_tests_cant": "cache boundaries and types", "anchors": [{"file": "yacl/crypto/tools/prg.h", "symbol": "Prg"}]}
{"id": "C55", "title": "Re-seeding a PRG restarts its stream", "statement": "After SetSeed(s) the outputs are those of a fresh generator with seed s.", "quantifier": "all histories", "why_tests_cant": "state dependent", "anchors": [{"file": "yacl/crypto/tools/prg.h", "symbol": "Prg"}]}
{"id": "C56", "title": "Pseudo-random fill is a prefix-consistent counter stream", "statement": "FillPRand output depends on length only by truncation, and the returned counter continues the stream without overlap.", "quantifier": "all lengths, counters, seeds", "why_tests_cant": "padding boundary", "anchors": [{"file": "yacl/crypto/tools/prg.cc", "symbol": "FillPRand"}]}
{"id": "C57", "title": "Mersenne reduction returns the canonical residue", "statement": "MersennePrimeMod returns the canonical representative in [0, p).", "quantifier": "all byte inputs", "why_tests_cant": "2^168 inputs", "anchors": [{"file": "yacl/crypto/tools/prg.h", "symbol": "MersennePrimeMod"}]}
{"id": "C58", "title": "DRBG Fill success means all bytes were generated", "statement": "If SyncDrbg::Fill returns 1 then every byte of the output was written by the generator.", "quantifier": "all lengths and generator outcomes", "why_tests_cant": "reseed timing", "anchors": [{"file": "yacl/crypto/experimental/sync_drbg/sync_drbg.cc", "symbol": "SyncDrbg"}]}
{"id": "C59", "title": "GF(2^64)/GF(2^128) multiplication is field multiplication", "statement": "Gf64Mul / Gf128Mul compute the product of polynomials over GF(2) modulo the documented irreducible polynomial, hence are commutative, associative and distributive; vectorized versions compute the inner product; Gf64Inv raises to 2^64-2.", "quantifier": "all operands", "why_tests_cant": "2^128 pairs", "anchors": [{"file": "yacl/math/galois_field/gf_intrinsic.cc", "symbol": "Gf64Mul"}, {"file": "yacl/math/galois_field/gf_intrinsic.cc", "symbol": "Gf128Reduce"}, {"file": "yacl/math/galois_field/gf_intrinsic.cc", "symbol": "Gf64Inv"}]}
{"id": "C60", "title": "Integer helpers are exact", "statement": "Log2Ceil, Log2Floor, DivCeil and RoundUpTo return the mathematical values without overflow for every 64-bit argument for which the result fits.", "quantifier": "all 64-bit values", "why_tests_cant": "boundaries", "anchors": [{"file": "yacl/math/gadget.h", "symbol": "Log2Ceil"}, {"file": "yacl/math/gadget.h", "symbol": "DivCeil"}]}
{"id": "C61", "title": "MPFSS parameters describe a partition and choices encode the indexes", "statement": "Block sizes sum to the total size, the number of OTs is the sum of block depths, GenChoices writes the bits of each index in order, SetIndexes installs the given indexes.", "quantifier": "all parameters", "why_tests_cant": "unbounded", "anchors": [{"file": "yacl/kernel/algorithms/mpfss.h", "symbol": "MpFssParam"}]}
{"id": "C62", "title": "In-memory link delivers what was sent", "statement": "On the in-process link, Recv(key) returns the bytes sent under that key, each once.", "quantifier": "all histories", "why_tests_cant": "schedules", "anchors": [{"file": "yacl/link/transport/channel_mem.cc", "symbol": "ChannelMem"}]}
{"id": "C63", "title": "Contexts sharing channels never use each other's message ids", "statement": "If two contexts that share channels (a parent and its children, or siblings) have different context ids, then no message id generated by one is ever generated by the other, whatever characters the context ids contain.", "quantifier": "all context ids and all histories of both contexts", "why_tests_cant": "depends on the string forms of arbitrary user supplied ids", "anchors": [{"file": "yacl/link/context.cc", "symbol": "Context::NextId"}, {"file": "yacl/link/context.cc", "symbol": "Context::NextP2PId"}]}
{"id": "C64", "title": "Point-to-point messages pair up in order", "statement": "Whatever other sends, receives and collectives two parties perform on a context, the n-th Recv from a at b waits for exactly the id that the n-th send from a to b used.", "quantifier": "all interleavings of actions of both parties", "why_tests_cant": "depends on independent counters on two machines staying in step for every history", "anchors": [{"file": "yacl/link/context.cc", "symbol": "Context::Send"}, {"file": "yacl/link/context.cc", "symbol": "Context::Recv"}, {"file": "yacl/link/context.cc", "symbol": "Context::NextP2PId"}]}
{"id": "C65", "title": "Sub-worlds are consistent", "statement": "SubWorld succeeds exactly when every requested party exists and the caller is among them; then the caller's rank is its position in the request and rank i of the sub-world is connected to the i-th requested party, for every member.", "quantifier": "all parent worlds and requests with distinct party ids", "why_tests_cant": "any permutation or subset may be requested", "anchors": [{"file": "yacl/link/context.cc", "symbol": "Context::SubWorld"}]}
{"id": "C66", "title": "MinCollidingHashIdx is the least hash index of an occupied bin", "statement": "For every occupied bin of a cuckoo index the reported hash index is the least hash function number that maps the stored item to that bin.", "quantifier": "all options, item lists and eviction histories", "why_tests_cant": "depends on all hash values and eviction histories", "anchors": [{"file": "yacl/utils/cuckoo_index.cc", "symbol": "CuckooIndex::MinCollidingHashIdx"}]}
{"id": "C67", "title": "Exceptions of loop bodies are not lost", "statement": "A parallel loop returns normally exactly if no chunk's body threw; otherwise it rethrows one of the thrown exceptions, after all chunks have ended.", "quantifier": "all numbers of chunks and all patterns of throwing chunks", "why_tests_cant": "patterns of failing chunks are unbounded", "anchors": [{"file": "yacl/utils/parallel.cc", "symbol": "_parallel_run"}]}
{"id": "C68", "title": "Parallel loops respect the grain size", "statement": "A parallel loop makes at most as many calls as there are threads and at most one call gets fewer indexes than the grain size.", "quantifier": "all ranges, grain sizes and thread counts", "why_tests_cant": "unbounded arithmetic", "anchors": [{"file": "yacl/utils/parallel.h", "symbol": "calc_num_tasks_and_chunk_size"}]}
{"id": "C71", "title": "Circuit files are read back faithfully or refused", "statement": "Reading the Bristol Fashion file of a circuit gives exactly that circuit; whatever the file, an accepted gate has the number of wires its operation needs; a truncated or malformed file is refused with an error.", "quantifier": "all circuits with 32-bit fields; all file contents", "why_tests_cant": "unbounded circuits and arbitrary file contents", "anchors": [{"file": "yacl/io/circuit/bristol_fashion.cc", "symbol": "CircuitReader::ReadAllGates"}, {"file": "yacl/io/stream/file_io.cc", "symbol": "FileInputStream::GetLine"}]}
{"id": "C69", "title": "Buffer keeps its bytes", "statement": "resize keeps the first min(old,new) bytes, reserve keeps contents and is refused exactly when below the size, copy/construct give equal bytes, move exchanges them, == is byte equality, and no operation changes another buffer.", "quantifier": "all sequences of Buffer operations on any number of buffers", "why_tests_cant": "arbitrary histories, sizes, capacities and aliasing", "anchors": [{"file": "yacl/base/buffer.h", "symbol": "Buffer::resize"}, {"file": "yacl/base/buffer.h", "symbol": "Buffer::reserve"}, {"file": "yacl/base/buffer.h", "symbol": "Buffer::operator="}]}
{"id": "C70", "title": "Buffer memory is freed exactly once with its own deleter", "statement": "Over any history of constructions, adoptions, copies, moves, resizes, releases and resets, no block is freed twice, each is freed with the deleter it came with, released memory is never freed by a buffer, live buffers never share or hold freed memory, and once all buffers are gone every block was freed or released.", "quantifier": "all sequences of Buffer operations on any number of buffers", "why_tests_cant": "ownership must hold on every history", "anchors": [{"file": "yacl/base/buffer.h", "symbol": "Buffer::reset"}, {"file": "yacl/base/buffer.h", "symbol": "Buffer::release"}]}
{"id": "C72", "title": "Stealing a store's blocks returns them", "statement": "StealBlkBuf on an unsliced OT store that is the only owner of its buffer returns all of its blocks.", "quantifier": "every store content", "why_tests_cant": "The unit tests never call it; the claim is about every store.", "anchors": [{"file": "yacl/kernel/type/ot_store.cc", "symbol": "OtRecvStore::StealBlkBuf"}, {"file": "yacl/kernel/type/slice_base.cc", "symbol": "SliceBase::Reset"}]}
{"id": "C73", "title": "Universal hash weights", "statement": "UniversalHash(seed, data) is the field element sum of data[i]*seed^(i+1); ExtractHashCoef(seed, sorted indexes) returns for each index exactly the weight seed^(index+1) that UniversalHash gives to that position.", "quantifier": "all seeds, data vectors and non-empty ascending index lists, in GF(2^64) and GF(2^128)", "why_tests_cant": "The identity must hold for every seed and every index list, and tests sample a few large random indexes only.", "anchors": [{"file": "yacl/math/galois_field/gf_intrinsic.h", "symbol": "UniversalHash"}, {"file": "yacl/math/galois_field/gf_intrinsic.h", "symbol": "ExtractHashCoef"}]}
{"id": "C74", "title": "KOS consistency check catches inconsistent choices", "statement": "If a receiver's KOS message uses different choice vectors in two columns, then for all but one in 2^64 values of some challenge word (whatever the others are) no answer passes the sender's check of those columns for both values of the sender's secret bits.", "quantifier": "all messages of a cheating receiver, all base OTs, all challenges and answers", "why_tests_cant": "Soundness quantifies over every cheating strategy and every challenge.", "anchors": [{"file": "yacl/kernel/algorithms/kos_ote.cc", "symbol": "KosOtExtSend"}, {"file": "yacl/math/galois_field/gf_intrinsic.h", "symbol": "Gf64Mul"}]}
{"id": "C75", "title": "KOS check message hides the choices", "statement": "The 64 choice bits that mask the receiver's KOS check message are random, so the message does not reveal the receiver's choices.", "quantifier": "all choices and challenges", "why_tests_cant": "Tests only check that the check passes; leakage is invisible to them.", "anchors": [{"file": "yacl/kernel/algorithms/kos_ote.cc", "symbol": "ExtendChoice"}, {"file": "yacl/crypto/tools/prg.h", "symbol": "Prg"}]}
{"id": "C76", "title": "Mixed generator calls never repeat key stream", "statement": "Any sequence of operator() and Fill calls on one generator returns pairwise disjoint pieces of the key stream of its seed.", "quantifier": "all call sequences, seeds, batch and element sizes", "why_tests_cant": "Reuse would need a particular interleaving of cached and direct draws.", "anchors": [{"file": "yacl/crypto/tools/prg.h", "symbol": "Prg"}]}
{"id": "C77", "title": "Single-point OT consistency proof binds the sender", "statement": "In malicious-secure SGRR, whatever messages and proof the sender makes up, two receivers (any indices, any derived seeds) that both accept the same proof hold the same seeds at every position other than their own indices, unless a hash collision is exhibited.", "quantifier": "all proofs, indices, seed vectors, hash functions", "why_tests_cant": "adversarial messages are unbounded", "anchors": [{"file": "yacl/kernel/algorithms/sgrr_ote.cc", "symbol": "VerifyCheckMsg"}, {"file": "yacl/kernel/algorithms/sgrr_ote.cc", "symbol": "GenCheckMsg"}]}
{"id": "C78", "title": "Multi-point functional secret sharing", "statement": "MpfssSend and MpfssRecv (and the fixed-index variants, for 128-bit and 64-bit values and any group operation) give vectors that agree everywhere except that at the chosen position of block i the sender's value exceeds the receiver's by w[i].", "quantifier": "all parameters, values, indexes inside their blocks, base OTs, seeds, hash functions and group operations", "why_tests_cant": "unbounded sizes and numbers of blocks; tests use a few sizes and one operation", "anchors": [{"file": "yacl/kernel/algorithms/mpfss.cc", "symbol": "MpfssSend"}, {"file": "yacl/kernel/algorithms/mpfss.cc", "symbol": "MpfssRecv"}, {"file": "yacl/kernel/algorithms/mpfss.cc", "symbol": "MpfssSend_fixed_index"}, {"file": "yacl/kernel/algorithms/mpfss.cc", "symbol": "MpfssRecv_fixed_index"}]}
{"id": "C79", "title": "VOLE from correlated OT", "statement": "Ot2VoleSend and Ot2VoleRecv on a correlated OT of delta give w = u*delta + v with u spelled by the choice bits, for all three element types; with too few OTs they throw.", "quantifier": "all correlated OTs, sizes, element types", "why_tests_cant": "the correlation must hold for every OT content", "anchors": [{"file": "yacl/kernel/algorithms/base_vole.h", "symbol": "Ot2VoleSend"}, {"file": "yacl/kernel/algorithms/base_vole.h", "symbol": "Ot2VoleRecv"}]}
{"id": "C80", "title": "Silent VOLE delivers a VOLE correlation", "statement": "After Send(c) and Recv(a, b) with an expand-accumulate code, c = a*delta + b for every length, randomness and element type.", "quantifier": "all lengths, random tapes, primitives", "why_tests_cant": "end-to-end composition over all randomness", "anchors": [{"file": "yacl/kernel/algorithms/silent_vole.cc", "symbol": "SendImpl"}, {"file": "yacl/kernel/algorithms/silent_vole.cc", "symbol": "RecvImpl"}]}
{"id": "C81", "title": "Key derivation returns the requested bytes", "statement": "KDF(Z, key_len) returns exactly key_len bytes, byte j being byte j mod 32 of the hash of Z followed by the big-endian counter j/32+1; so shorter keys are prefixes of longer ones.", "quantifier": "all inputs, all lengths below 2^36-32, all hash functions", "why_tests_cant": "all lengths, block boundaries", "anchors": [{"file": "yacl/crypto/experimental/tpre/kdf.cc", "symbol": "KDF"}]}
{"id": "C82", "title": "Evaluate computes the multilinear extension", "statement": "Evaluating a table of 2^k field elements at a point of k coordinates returns the value of its multilinear extension there, so at 0/1 points it returns the table entry; a wrong number of coordinates throws.", "quantifier": "all tables, points and moduli", "why_tests_cant": "a polynomial identity over all points; tests evaluate a few", "anchors": [{"file": "yacl/crypto/experimental/zkp/sumcheck/polynomial.cc", "symbol": "MultilinearPolynomial::Evaluate"}]}
{"id": "C83", "title": "Matrix product through extensions", "statement": "MatMatMultiplication(A, B, u, v) is the value at (u, v) of the multilinear extension of the matrix product A*B, MatVecMultiplication likewise for matrix times vector, and mismatched dimensions throw.", "quantifier": "all power-of-two shapes, entries, points and moduli", "why_tests_cant": "identity over all shapes and points", "anchors": [{"file": "yacl/crypto/experimental/zkp/sumcheck/matmul_check.cc", "symbol": "MatMatMultiplication"}, {"file": "yacl/crypto/experimental/zkp/sumcheck/matmul_check.cc", "symbol": "MatVecMultiplication"}]}
{"id": "C84", "title": "Lookup argument is complete and sound", "statement": "RunLogUpProtocol on looked-up values, table and multiplicities never rejects when every value is looked up exactly as often as the table declares (modulo the prime), throws exactly when the challenge hits a value in use, and otherwise fewer than |A|+|B| challenges make it accept.", "quantifier": "all lists, multiplicities, primes and draws", "why_tests_cant": "probability statement over all challenges and all inputs", "anchors": [{"file": "yacl/crypto/experimental/zkp/sumcheck/logup.cc", "symbol": "RunLogUpProtocol"}, {"file": "yacl/crypto/experimental/zkp/sumcheck/logup.cc", "symbol": "LogUpProver::Setup"}, {"file": "yacl/crypto/experimental/zkp/sumcheck/logup.cc", "symbol": "LogUpVerifier::Verify"}]}
{"id": "C85", "title": "Generator state synchronisation", "statement": "After SyncDrbg::SendState/RecvState both return, the receiver's generator has exactly the sender's state, both can be used again, and both produce the same bytes for every same sequence of Fill calls until one of them reseeds; if the link fails during the sync, later Fill calls return 0 without touching the buffer.", "quantifier": "all generator states, all call sequences, any generator library, any entropy sources", "why_tests_cant": "internal states range over 2^888 values and the agreement is about all continuations", "anchors": [{"file": "yacl/crypto/experimental/sync_drbg/sync_drbg.cc", "symbol": "SendState"}, {"file": "yacl/crypto/experimental/sync_drbg/sync_drbg.cc", "symbol": "RecvState"}]}
{"id": "C86", "title": "dynamic_bitset is an array of bits", "statement": "Any program over dynamic_bitset variables (construction from integers and strings, assignment, push/pop, resize, clear, append of blocks, of other bitsets and of itself, single-bit, range and whole-set updates, shifts, and/or/xor/difference) leaves every variable holding exactly the bits the same program leaves in plain arrays of bits, and goes out of range exactly when the array program does; the stored form is canonical", "quantifier": "all block widths dividing 128, all programs of any length over any number of variables, all sizes and arguments", "why_tests_cant": "block boundaries, aliasing and stale unused bits interact over histories; tests try a few sizes", "anchors": [{"file": "yacl/base/dynamic_bitset.h", "symbol": "dynamic_bitset::append"}, {"file": "yacl/base/dynamic_bitset.h", "symbol": "dynamic_bitset::resize"}, {"file": "yacl/base/dynamic_bitset.h", "symbol": "dynamic_bitset::operator<<="}, {"file": "yacl/base/dynamic_bitset.h", "symbol": "dynamic_bitset::set"}]}
{"id": "C87", "title": "dynamic_bitset queries, order and strings", "statement": "After any program, test, test_set, all, any, none, count, find_first, find_next, iteration over set bits, ==, <, inclusion, intersection and to_string answer what they answer on the plain array of bits; < orders by numeric value and then by length; a string written by to_string parses back to the same bitset", "quantifier": "all block widths dividing 128, all programs, all pairs of variables, all positions, all character pairs", "why_tests_cant": "the answer depends on every bit and on block boundaries; tests sample", "anchors": [{"file": "yacl/base/dynamic_bitset.h", "symbol": "dynamic_bitset::count"}, {"file": "yacl/base/dynamic_bitset.h", "symbol": "dynamic_bitset::find_next"}, {"file": "yacl/base/dynamic_bitset.h", "symbol": "operator<"}, {"file": "yacl/base/dynamic_bitset.h", "symbol": "dynamic_bitset::to_string"}]}
{"id": "C88", "title": "MPInt byte formats, bit access and native conversions", "statement": "For every MPInt value: BitCount is the bit length of the absolute value; ToMagBytes gives exactly its base-256 digits (either byte order), FromMagBytes reads any byte string back into any existing number; ToBytes fills a field of n bytes with the two's complement representation modulo 256^n; GetBit and SetBit act on the binary digits of the absolute value; Serialize gives the documented sign-magnitude layout in the smallest length, Deserialize reads any non-empty byte string, and Deserialize after Serialize into any existing number is the identity; Set and Get of every native integer type agree with the integer value (wrapping to the type); RandomExactBits(b) reaches every value below 2^b and no other; SlowCustomPow computes the power in any monoid", "quantifier": "all values of any size and sign, all target numbers with any previous contents, all buffers and lengths, both byte orders, all native widths, all digit widths that are multiples of 4 between 8 and 60 (60 in the build)", "why_tests_cant": "digit and byte boundaries interleave with period lcm(60,8), and stale digits of the target depend on its history; tests try a few numbers", "anchors": [{"file": "yacl/math/mpint/tommath_ext_features.cc", "symbol": "mpx_to_bytes"}, {"file": "yacl/math/mpint/tommath_ext_features.cc", "symbol": "mpx_from_mag_bytes"}, {"file": "yacl/math/mpint/tommath_ext_features.cc", "symbol": "mpx_serialize"}, {"file": "yacl/math/mpint/tommath_ext_types.cc", "symbol": "mpx_set_u128"}, {"file": "yacl/math/mpint/mp_int.h", "symbol": "MPInt::SlowCustomPow"}]}
{"id": "C89", "title": "MPInt quotients round down, remainders are least residues", "statement": "operator/ and /= of MPInt (by an MPInt or a uint64_t) round the quotient towards minus infinity, operator% and Mod give the remainder in [0,b) for positive b, so that a == (a/b)*b + a%b; division by zero throws; the uint64_t versions agree with the general ones", "quantifier": "all integers a and b of any sign and size, all uint64_t divisors on both sides of the digit limit", "why_tests_cant": "sign combinations and magnitudes |a| < |b| matter; tests try few", "anchors": [{"file": "yacl/math/mpint/mp_int.cc", "symbol": "MPInt::operator/"}, {"file": "yacl/math/mpint/mp_int.cc", "symbol": "MPInt::operator%"}, {"file": "yacl/math/mpint/mp_int.cc", "symbol": "MPInt::Mod"}]}
{"id": "C90", "title": "Fast safe primes are safe primes; RandomLtN stays below its bound", "statement": "If RandPrimeOver(bits, FastSafe) returns p and the probabilistic test told the truth about (p-1)/2, then p and (p-1)/2 are both prime and p has at least the requested bit length; RandomLtN(n) returns the first draw in [0,n)", "quantifier": "all random byte sequences, all bit sizes from 3 bits on (the API admits 82 and more), any number of failed attempts, all n", "why_tests_cant": "tests can only check a few random runs, and their check uses the same probabilistic test", "anchors": [{"file": "yacl/math/mpint/tommath_ext_features.cc", "symbol": "mpx_safe_prime_rand"}, {"file": "yacl/math/mpint/mp_int.cc", "symbol": "MPInt::RandomLtN"}]}
{"id": "C91", "title": "Inner product argument: verdict, completeness and soundness", "statement": "InnerProductProof::Verify returns true exactly when the textbook recursive verifier, which folds P, G, H with the transcript's challenges round by round, accepts; a proof made by Create for vectors a and b is accepted for the commitment sum a_i Gf_i G_i + sum b_i Hf_i H_i + <a,b> Q; and a prover whose answers are accepted for four usable challenges in every round can only have started from a point of that form.", "quantifier": "all power-of-two lengths below 2^32, all vectors, factors, generators, transcript states, hash functions, encodings and provers; all prime-field modules", "why_tests_cant": "A test runs a few lengths with random vectors; the equality of the batched and the recursive check, and extraction, quantify over all challenges and provers.", "anchors": [{"file": "yacl/crypto/experimental/zkp/bulletproofs/ipa/inner_product_proof.cc", "symbol": "InnerProductProof::Create"}, {"file": "yacl/crypto/experimental/zkp/bulletproofs/ipa/inner_product_proof.cc", "symbol": "InnerProductProof::Verify"}, {"file": "yacl/crypto/experimental/zkp/bulletproofs/ipa/inner_product_proof.cc", "symbol": "InnerProductProof::VerificationScalars"}, {"file": "yacl/crypto/experimental/zkp/bulletproofs/simple_transcript.cc", "symbol": "SimpleTranscript"}, {"file": "yacl/crypto/experimental/zkp/bulletproofs/util.cc", "symbol": "MultiScalarMul"}]}
{"id": "C92", "title": "Range proofs accept values in range and reject values out of range", "statement": "For the aggregated Bulletproofs range proof: a proof produced for values that all lie in [0, 2^n) is accepted by the verifier against the commitments the prover returned, whatever the values, the blindings, the prover's randomness and the transcript's challenges; a proof produced for a value of 2^n or more is rejected; and an accepting prover who answers enough challenges can only have committed to values in [0, 2^n).", "quantifier": "all value lists, bit sizes 8/16/32/64, blindings, random scalars, challenge functions, generators, and for soundness all proof points and all prover strategies", "why_tests_cant": "Tests try a handful of values with one random transcript; completeness must hold for every challenge and soundness speaks about every prover.", "anchors": [{"file": "yacl/crypto/experimental/zkp/bulletproofs/range_proof/range_proof.cc", "symbol": "RangeProof::ProveMultiple"}, {"file": "yacl/crypto/experimental/zkp/bulletproofs/range_proof/range_proof.cc", "symbol": "RangeProof::VerifyMultiple"}, {"file": "yacl/crypto/experimental/zkp/bulletproofs/range_proof/range_proof.cc", "symbol": "Delta"}, {"file": "yacl/crypto/experimental/zkp/bulletproofs/util.cc", "symbol": "VecPoly1::InnerProduct"}]}
{"id": "C93", "title": "OPRF output and blindness", "statement": "For every history of calls on an OPRF client, an evaluation (Blind, the server's BlindEvaluate, Finalize) returns the pseudo random function of the server's key and the input, independent of the blind; the blinded element reveals nothing about the input; the hashed byte string determines the input and the element.", "quantifier": "all keys, inputs, blinds, groups of prime order, hash functions and histories of Blind/Finalize/RefreshBlind/ClearBlind calls", "why_tests_cant": "tests use one fresh client per evaluation; the claim is about every history and every blind", "anchors": [{"file": "yacl/crypto/oprf/oprf.h", "symbol": "OprfClient::Finalize"}, {"file": "yacl/crypto/oprf/oprf.h", "symbol": "OprfClient::RefreshBlind"}, {"file": "yacl/crypto/oprf/oprf.h", "symbol": "OprfServer::BlindEvaluate"}]}
{"id": "C94", "title": "VOPRF proofs", "statement": "The proof a VOPRF server attaches to its evaluations is accepted for every key, batch and nonce, and the client then returns the pseudo random function; a client returns nothing for a proof it does not accept; for a wrong evaluation at most one challenge can be answered, and a wrong element of a batch survives for at most one value of its weight.", "quantifier": "all keys, batches up to 65536 elements, nonces, proofs and hash functions", "why_tests_cant": "soundness speaks about all dishonest provers; completeness about all keys, batches and nonces", "anchors": [{"file": "yacl/crypto/oprf/voprf.h", "symbol": "VOprfServer::GenerateProof"}, {"file": "yacl/crypto/oprf/voprf.h", "symbol": "VOprfClient::VerifyProof"}, {"file": "yacl/crypto/oprf/voprf.h", "symbol": "VOprfClient::Finalize"}]}
{"id": "C95", "title": "OPRF context strings and key derivation", "statement": "Context strings of different modes or cipher suites differ and a configuration is read back from its context string; deterministic key derivation returns a non-zero key that depends only on seed and info, retrying with the next counter when the hash is zero.", "quantifier": "all modes, suites, strings, seeds and info strings, all hash functions", "why_tests_cant": "the retry path needs a hash output of zero, which no test can produce", "anchors": [{"file": "yacl/crypto/oprf/oprf_ctx.h", "symbol": "OprfConfig::FromContextString"}, {"file": "yacl/crypto/oprf/oprf_ctx.h", "symbol": "OprfConfig::ToContextString"}, {"file": "yacl/crypto/oprf/oprf_ctx.cc", "symbol": "OprfCtx::DeriveKeyPair"}]}
{"id": "C96", "title": "Affine Weierstrass arithmetic is the curve group", "statement": "On every supported curve y^2 = x^3 + A x + B over a prime field, addition, negation, subtraction, doubling, multiplication by any integer scalar, double base multiplication and division by a scalar compute the operations of the curve's group on representations of points; the membership test accepts exactly the points of the curve, and equality of representations is equality of points.", "quantifier": "all primes p, coefficients A and B with non-zero discriminant and B non-zero mod p, points, integer scalars (negative and zero included)", "why_tests_cant": "group laws and scalar multiplication range over all points of the curve and unbounded scalars; the exceptional cases (equal x, opposite points, infinity, points of order two) are reached by few inputs", "anchors": [{"file": "yacl/crypto/ecc/toy/weierstrass.cc", "symbol": "ToyWeierstrassGroup::Add"}, {"file": "yacl/crypto/ecc/toy/weierstrass.cc", "symbol": "ToyWeierstrassGroup::Mul"}, {"file": "yacl/crypto/ecc/toy/weierstrass.cc", "symbol": "ToyWeierstrassGroup::Negate"}, {"file": "yacl/crypto/ecc/toy/weierstrass.cc", "symbol": "ToyWeierstrassGroup::IsInCurveGroup"}, {"file": "yacl/crypto/ecc/group_sketch.cc", "symbol": "GroupSketch::Div"}, {"file": "yacl/math/mpint/mp_int.h", "symbol": "MPInt::SlowCustomPow"}]}
{"id": "C97", "title": "The X25519 group multiplies by the clamped scalar", "statement": "On a Montgomery curve y^2 = x^3 + A x^2 + x the product of an x-coordinate by an integer is the reduced x-coordinate of the multiple, by the clamped scalar, of every point with that x-coordinate, on the curve or its twist; so two parties agree on a Diffie-Hellman secret for every base and keys. The order of curve25519's generator is the advertised one.", "quantifier": "all primes of 255 bits, coefficients, x-coordinates (also unreduced ones), integer scalars, points over any extension field", "why_tests_cant": "the ladder's invariant is about all points, including those of order two, the twist and the point at infinity, and all 2^251 scalars", "anchors": [{"file": "yacl/crypto/ecc/toy/montgomery.cc", "symbol": "ToyXGroup::Mul"}, {"file": "yacl/crypto/ecc/toy/montgomery.cc", "symbol": "ToyXGroup::Negate"}, {"file": "yacl/crypto/ecc/toy/montgomery.cc", "symbol": "ToyXGroup::IsInCurveGroup"}, {"file": "yacl/crypto/ecc/toy/factory.cc", "symbol": "kPredefinedCurves"}]}
{"id": "C98", "title": "SoftSpoken OT extension delivers correct OTs; compact mode hides nothing", "statement": "After the one-time setup of a SoftSpoken sender and receiver over 128 base OTs, every Send/Recv pair ends with the receiver holding, for each OT, the sender message selected by its choice bit; the honest consistency check passes; in COT mode all message pairs differ by the same Delta (the base choices, with lowest bit one in compact mode) and in compact COT mode the lowest bit of each received block is the choice; both counters stay equal. The receiver's choices are to remain hidden from the messages: in compact mode the code fails this.", "quantifier": "every k from 1 to 31, mode (semi-honest or malicious, compact or normal), step size, counter, list of choices, base OT content, tree seeds, challenge, and hash and permutation functions", "why_tests_cant": "the statement is over all numbers of OTs, all choices and all call histories, and the leak is a statement about every run", "anchors": [{"file": "yacl/kernel/algorithms/softspoken_ote.cc", "symbol": "SoftspokenOtExtSender::Send"}, {"file": "yacl/kernel/algorithms/softspoken_ote.cc", "symbol": "SoftspokenOtExtReceiver::Recv"}, {"file": "yacl/kernel/algorithms/softspoken_ote.cc", "symbol": "XorReduceImpl"}]}
{"id": "C99", "title": "Ferret OT extension delivers correct COTs for any number of batches", "statement": "From enough base COTs with an odd correlation, the Ferret extension of two honest parties ends without exception, in malicious mode passes its own consistency check, and outputs the requested number of COTs with the same correlation, whatever number of batches that takes. The receiver's choices are a public linear code word of secret base choices plus one marked position per tree, read from base choices used for nothing else.", "quantifier": "all base COTs, seeds, hash functions and permutations, all parameters (n, k, t) with t equal trees, both security modes, both variants, every number of OTs and previous contents of the outputs", "why_tests_cant": "the batches chain: the seeds of each are cut from the outputs of the one before; the check and the last, smaller tree depend on sizes no test enumerates", "anchors": [{"file": "yacl/kernel/algorithms/ferret_ote.cc", "symbol": "FerretOtExtSend,FerretOtExtRecv"}, {"file": "yacl/kernel/algorithms/ferret_ote_rn.h", "symbol": "MpCotRNSend,MpCotRNRecv"}]}
{"id": "C100", "title": "OT kernel: any history of calls yields correct OTs and hides the choices", "statement": "After init, with either extension algorithm, any sequence of correlated and random OT calls of accepted sizes succeeds; correlated OTs all have the one odd correlation fixed by init, random OTs give the receiver the message of its choice. The receiver's choices stay hidden: not fixed by what it sends, and calls do not share secrets.", "quantifier": "all base OTs, seeds, hash functions, both algorithms, every finite sequence of calls and sizes", "why_tests_cant": "a history of calls over shared state (counters, cached base COTs), arbitrary sizes", "anchors": [{"file": "yacl/kernel/ot_kernel.cc", "symbol": "OtKernel::init,eval_cot_random_choice,eval_rot,naive_cot2rot"}]}
{"id": "C101", "title": "Correlation-robust hashes: batch and single versions compute the documented function", "statement": "Hashing a block alone, in a batch, or in place gives the same value: RP(x) xor x for the correlation-robust hash and RP(Sigma(x)) xor Sigma(x) for the circular one, where Sigma is a linear orthomorphism (it and x -> Sigma(x) xor x are permutations), so that different blocks keep different preimages.", "quantifier": "all blocks, all fixed permutations, batches of any length", "why_tests_cant": "all 2^128 blocks and all batch lengths; the existing test compares the single version only with itself", "anchors": [{"file": "yacl/crypto/tools/crhash.cc", "symbol": "CrHash_128,ParaCrHash_128,ParaCrHashInplace_128,CcrHash_128,ParaCcrHash_128,ParaCcrHashInplace_128,Sigma,SigmaInplace"}]}
{"id": "C102", "title": "Symmetric encryption object: streams decrypt, whatever the cuts", "statement": "For every mode (ECB, CBC, CTR), key, vector and sequence of Encrypt calls on one object, an object with the same key and vector decrypts the concatenated ciphertext back to the concatenated plaintext however the stream is cut into Decrypt calls, sizes are preserved, messages above the 2^31-16 byte piece limit included; Reset restores the first state. The random permutation built on it is injective in every mode and applies block by block in ECB. (Encrypt being const does not make it stateless in CBC and CTR, and the CBC random permutation on many blocks is not the one on each block.)", "quantifier": "all ciphers, modes, vectors, message sequences of any length and count, all ways to cut the ciphertext", "why_tests_cant": "Tests use a few short messages and never cross the internal piece limit, and cannot range over histories of calls", "anchors": [{"file": "yacl/crypto/block_cipher/symmetric_crypto.cc", "symbol": "SymmetricCrypto::Encrypt,Decrypt,Reset"}, {"file": "yacl/crypto/tools/rp.cc", "symbol": "RP::Gen,GenForMultiInputs"}]}
{"id": "C103", "title": "Authenticated encryption and digital envelopes accept exactly honest ciphertexts", "statement": "SM4-MTE decryption returns m iff m is not empty and the ciphertext is the encryption of m; GCM decryption returns m iff encryption of m gives this ciphertext and tag; wrong sizes are refused; what an envelope seals for a public key the private key opens. (Empty messages of SM4-MTE cannot be decrypted, the AEAD interface ignores additional data for SM4-MTE, and the reported MAC size of AES-256-GCM is wrong.)", "quantifier": "all keys, vectors, messages, additional data, ciphertexts and MACs; any cipher, hash, MAC and GCM function; any correct public-key scheme", "why_tests_cant": "Tests flip a byte or two of one message; acceptance of exactly the honest ciphertexts ranges over all of them", "anchors": [{"file": "yacl/crypto/aead/sm4_mte.cc", "symbol": "Sm4MteEncrypt,Sm4MteDecrypt"}, {"file": "yacl/crypto/aead/all_gcm.cc", "symbol": "GcmCrypto"}, {"file": "yacl/crypto/aead/aead.cc", "symbol": "AeadCtx"}, {"file": "yacl/crypto/envelope/digital_envelope.cc", "symbol": "SmEnvSeal,RsaEnvSeal"}]}
{"id": "C104", "title": "Hash to curve follows RFC 9380", "statement": "For every message and every domain separation tag of 16 to 255 bytes, HashToCurve and EncodeToCurve return the point that RFC 9380 prescribes for the suite (P-256, P-384, P-521 with the simplified SWU map, Curve25519 with Elligator 2), HashToScalar returns the expanded message reduced modulo the group order, and none of them throws.", "quantifier": "all messages, all tags, all hash functions of the digest size of the suite", "why_tests_cant": "The input space is unbounded and the exceptional cases of the maps (zero denominators, equal points, points of small order, zero y) are hit with probability about 2^-255 by tests", "anchors": [{"file": "yacl/crypto/ecc/hash_to_curve/hash_to_curve_util.cc", "symbol": "ExpandMessageXmd, HashToField, MapToCurveSSWU, SqrtRatio"}, {"file": "yacl/crypto/ecc/hash_to_curve/p256.cc", "symbol": "HashToCurveP256, EncodeToCurveP256, HashToScalarP256"}, {"file": "yacl/crypto/ecc/hash_to_curve/p384.cc", "symbol": "HashToScalarP384"}, {"file": "yacl/crypto/ecc/hash_to_curve/p521.cc", "symbol": "HashToScalarP521"}, {"file": "yacl/crypto/ecc/hash_to_curve/curve25519.cc", "symbol": "MapToCurveG2, PointAdd, PointDbl, PointClearCofactor"}]}
{"id": "C105", "title": "Searchable encryption: a search returns the records that match", "statement": "After the encrypted database is set up, a search for keywords w1, w2, ... returns exactly the identifiers of the records that have all of them; with a Boolean expression, the records of w1 for which the expression is true. No matching record is ever missed, whatever the tags do. An empty query returns nothing; setup fails only if a blinding factor is zero.", "quantifier": "all databases, queries, keys, IVs and slot choices (hash functions arbitrary; absence of collisions is a hypothesis)", "why_tests_cant": "tests run a few queries against one five-line file", "anchors": [{"file": "yacl/crypto/experimental/sse/sse.cc", "symbol": "Sse::EDBSetup"}, {"file": "yacl/crypto/experimental/sse/sse.cc", "symbol": "Sse::SearchProtocol"}]}
{"id": "C106", "title": "Searchable encryption: Boolean queries", "statement": "The expression of a Boolean query is evaluated as a Boolean formula over the keywords, independently of the order in which the values are stored.", "quantifier": "all expressions, values and map iteration orders", "why_tests_cant": "the result depends on operator order and on hash map order, which a test fixes", "anchors": [{"file": "yacl/crypto/experimental/sse/sse.cc", "symbol": "Sse::EvaluateExpression"}]}
{"id": "C107", "title": "Searchable encryption: saving and loading the database", "statement": "A database that is saved and loaded answers every search as before.", "quantifier": "all databases and queries", "why_tests_cant": "the test searches for a keyword the data does not contain", "anchors": [{"file": "yacl/crypto/experimental/sse/sse.cc", "symbol": "Sse::SaveEDB"}, {"file": "yacl/crypto/experimental/sse/sse.cc", "symbol": "Sse::LoadEDB"}]}
{"id": "C108", "title": "Plug-in factory picks the best library that supports the request", "statement": "For any sequence of registrations: Create without a library name picks a library whose checker accepts the request and none with a higher priority accepts it (the earliest registered among equals), and throws exactly if none accepts. Create with a name uses that library or throws. The listing of libraries is exactly those Create accepts by name. A second registration of a name, in any case, is refused. Arguments set through a key are read back through the key; a value of another type is never returned.", "quantifier": "all registration sequences, checkers, requests, names, argument lists", "why_tests_cant": "the choice depends on the whole history of registrations and on arbitrary checkers", "anchors": [{"file": "yacl/utils/spi/spi_factory.h", "symbol": "SpiFactoryBase"}, {"file": "yacl/utils/spi/argument/util.cc", "symbol": "ToSnakeCase"}, {"file": "yacl/utils/spi/argument/arg_set.h", "symbol": "SpiArgs"}]}
{"id": "C109", "title": "Montgomery spaces and fixed-base exponentiation compute base^e mod n", "statement": "For every positive odd modulus, mapping any integer into the Montgomery space and back gives its residue; multiplying in the space multiplies residues; the table built by MakeBaseTable for any base that is not negative, any unit of 1 to 31 bits and any maximal size makes PowMod return base^e mod n for every exponent within that size, and larger or negative exponents are refused. Even or negative moduli are refused.", "quantifier": "all moduli, bases, exponents, units, table sizes, word sizes", "why_tests_cant": "carries between limbs and units that cross word boundaries occur only for particular limb values", "anchors": [{"file": "yacl/math/bigint/mont_space.cc", "symbol": "MontgomerySpace"}, {"file": "yacl/math/bigint/gmp/gmp_int.cc", "symbol": "MontgomeryReduce"}, {"file": "yacl/math/bigint/gmp/mont_space.cc", "symbol": "GmpMontSpace"}, {"file": "yacl/math/bigint/openssl/mont_space.cc", "symbol": "OpensslMontSpace"}, {"file": "yacl/math/bigint/tommath/mont_space.cc", "symbol": "MPIntMontSpace"}]}
{"id": "C110", "title": "Big integer backends agree", "statement": "The OpenSSL, GMP and MPInt backends of BigInt compute the same thing for the same number: ToBytes gives the same two's-complement bytes for every length and byte order, Serialize the same bytes, any backend reads back what any other wrote, bitwise operators are those of unbounded two's complement, quotients and remainders round towards minus infinity, GetBit/SetBit address the absolute value, Get<T> returns every value of the type unchanged, random numbers are unpredictable.", "quantifier": "all integers, buffer lengths, byte orders, byte strings, bit positions, word values and thread interleavings", "why_tests_cant": "The interesting cases are carries across arbitrary many bytes, sign combinations, boundary values and cross-backend pairs; tests compare a few numbers in one backend.", "anchors": [{"file": "yacl/math/bigint/openssl/bignum.cc", "symbol": "BigNum"}, {"file": "yacl/math/bigint/openssl/bignum.h", "symbol": "BigNum::Get"}, {"file": "yacl/math/bigint/gmp/gmp_int.cc", "symbol": "GMPInt"}, {"file": "yacl/math/bigint/gmp/gmp_int.h", "symbol": "GMPInt::Get,RandState"}]}
{"id": "C111", "title": "Native random generator draws on its entropy", "statement": "Bytes filled by the GM-DRBG generator depend on the entropy source, a reseed succeeds and mixes in fresh entropy, long-lived generators keep working, and OpenSSL's generators built through yacl's provider are seeded from the entropy source.", "quantifier": "every block cipher and hash, every answer of the entropy sources, every nonce, every history of Fill and ReSeed calls including calls after an exception", "why_tests_cant": "Tests see bytes that look random; that they are the same in every process, or that the 1025th request fails, shows only over all seeds and over long histories.", "anchors": [{"file": "yacl/crypto/rand/drbg/native_factory.cc", "symbol": "Sm4Drbg::Instantiate"}, {"file": "yacl/crypto/rand/drbg/native_factory.cc", "symbol": "Sm4Drbg::derive"}, {"file": "yacl/crypto/rand/drbg/native_factory.cc", "symbol": "Sm4Drbg::Generate"}, {"file": "yacl/crypto/rand/drbg/native_factory.cc", "symbol": "Sm4Drbg::ReSeed"}, {"file": "yacl/crypto/rand/entropy_source/rdseed_factory.cc", "symbol": "RdSeedEntropySource::GetEntropy"}, {"file": "yacl/crypto/ossl_provider/rand_impl.h", "symbol": "yacl_rand_ctx_get_seed"}]}
{"id": "C112", "title": "Random helpers and the replayable shuffle", "statement": "Random bit vectors consist of different bits of the generator's output and every pattern occurs; seeds take every 128-bit value; random numbers below a bound are below it and even up to one string; the replayable shuffle rearranges its range without leaving it, every rearrangement comes from exactly one choice of remainders, the counter handed back makes the next shuffle use fresh cipher inputs, and the replayable generator can be stopped and taken up again.", "quantifier": "every output of the generator, every length, bound, list, seed and counter, every cipher", "why_tests_cant": "Uniformity and reachability are statements about all random strings at once; a run shows one of them.", "anchors": [{"file": "yacl/crypto/rand/rand.cc", "symbol": "RandBits"}, {"file": "yacl/crypto/rand/rand.h", "symbol": "RandSeed"}, {"file": "yacl/crypto/rand/rand.h", "symbol": "RandLtN"}, {"file": "yacl/crypto/rand/rand.h", "symbol": "RandInRange"}, {"file": "yacl/crypto/rand/rand.h", "symbol": "ReplayShuffle"}, {"file": "yacl/crypto/rand/rand.h", "symbol": "YaclReplayUrbg"}]}
{"id": "C113", "title": "Black-box transport: topics, queues, sending, stopping, ranks", "statement": "Over the black-box transport, what one party pushes to another is what the other pops: topics of different pairs differ, messages of a topic come out once each in order, a send returns exactly when the queue accepts it, a listener can always be stopped, and all parties that see the same announcements in their environment, in whatever order, agree on the list of parties and on every rank.", "quantifier": "all party names, all histories of pushes and pops over all topics, all sequences of service answers, all interleavings of the starting and stopping threads, all permutations of the environment", "why_tests_cant": "the histories, interleavings and environment orders are unbounded; a test sees one of each", "anchors": [{"file": "yacl/link/transport/brpc_blackbox_link.cc", "symbol": "BrpcBlackBoxLink"}, {"file": "yacl/link/transport/interconnection_link.cc", "symbol": "MakeOptions"}, {"file": "yacl/link/factory_brpc_blackbox.cc", "symbol": "GetPartyNodeInfoFromEnv"}, {"file": "yacl/link/transport/blackbox_interconnect/blackbox_dummy_service_impl.cc", "symbol": "OnPop"}]}
{"id": "C114", "title": "Base oblivious transfer gives the chosen block", "statement": "After BaseOtSend and BaseOtRecv the receiver holds, at every index, the sender's block selected by its choice bit, whichever build of the library each side runs; the sender's view has the same distribution for all choice vectors; and different indices never share an oracle query.", "quantifier": "all numbers of transfers, all choice vectors, all secrets of both parties, all points the sender may send, both implementations", "why_tests_cant": "choices, secrets and lengths are unbounded; indistinguishability of views is a statement about all secrets", "anchors": [{"file": "yacl/kernel/algorithms/base_ot.cc", "symbol": "BaseOtRecv"}, {"file": "yacl/kernel/algorithms/base_ot.cc", "symbol": "BaseOtSend"}, {"file": "yacl/kernel/algorithms/x86_asm_ot_interface.cc", "symbol": "Recv"}, {"file": "yacl/kernel/algorithms/portable_ot_interface.cc", "symbol": "Send"}, {"file": "yacl/crypto/tools/ro.h", "symbol": "RandomOracle"}]}
{"id": "C115", "title": "Rank-1 constraint proofs: same circuit, completeness, unsatisfied constraints rejected", "statement": "A verifier that runs the prover's gadget builds the same multipliers, constraints and transcript; the product gates hold for the prover's values at the time of proving and the values it computed never change; the verifier accepts an honestly computed proof exactly when the constraints combined with powers of z vanish, hence always when all hold and, when one fails, for at most as many challenges z as there are constraints; Multiply's output is the product of its arguments under every assignment satisfying the circuit; a prover that convinces the verifier on enough challenges, however it computes its answers, has committed to values that satisfy all gates and constraints, those of the first phase fixed before the second phase; a proof reveals nothing about its blinding factors.", "quantifier": "all gadgets (trees of calls, with callbacks and challenges), all values, blindings, transcripts, challenge functions, all sizes", "why_tests_cant": "gadgets are programs written by users, of unbounded size, and proofs depend on random scalars and challenges", "anchors": [{"file": "yacl/crypto/experimental/zkp/bulletproofs/r1cs/r1cs_prover.cc", "symbol": "R1CSProver::Prove"}, {"file": "yacl/crypto/experimental/zkp/bulletproofs/r1cs/r1cs_verifier.cc", "symbol": "R1CSVerifier::Verify"}, {"file": "yacl/crypto/experimental/zkp/bulletproofs/r1cs/r1cs_linear_combination.cc", "symbol": "LinearCombination"}, {"file": "yacl/crypto/experimental/zkp/bulletproofs/util.cc", "symbol": "SpecialInnerProduct"}]}
{"id": "C116", "title": "Bulletproofs proofs survive being written and read", "statement": "An inner product, range or constraint-system proof written with ToBytes is read back unchanged by FromBytes; writing never leaves the buffer; reading any byte string never reads outside it; a proof has one encoding.", "quantifier": "all proofs, all sizes, all point encodings, all byte strings", "why_tests_cant": "proofs have unbounded shape and scalars; attackers choose the bytes that are read", "anchors": [{"file": "yacl/crypto/experimental/zkp/bulletproofs/ipa/inner_product_proof.cc", "symbol": "InnerProductProof::ToBytes"}, {"file": "yacl/crypto/experimental/zkp/bulletproofs/ipa/inner_product_proof.cc", "symbol": "InnerProductProof::FromBytes"}, {"file": "yacl/crypto/experimental/zkp/bulletproofs/ipa/inner_product_proof.h", "symbol": "SerializedSize"}, {"file": "yacl/crypto/experimental/zkp/bulletproofs/range_proof/range_proof.cc", "symbol": "RangeProof::ToBytes"}, {"file": "yacl/crypto/experimental/zkp/bulletproofs/r1cs/r1cs_proof.cc", "symbol": "R1CSProof::ToBytes"}]}
{"id": "C117", "title": "The Silver code computes xL + xR * R^-1 * L", "statement": "A Silver code of weight 5 or 11 can be built for every length n from the weight up, and its dual encoding of a buffer (xL, xR) of 2n elements never touches memory outside the buffers and gives xL + z*L where z is the unique solution of z*R = xR, with L the circulant matrix of the code and R the unit lower triangular band matrix. The in-place version leaves z in the second half and the rest of the buffer alone; the copying version writes the same n elements and nothing else; encoding two messages at once equals encoding each. Encoding keeps every relation c = f(a) + b with additive f, and a message encodes to zero exactly if it is z*[L R].", "quantifier": "all lengths n, both weights, all start positions of the left matrix, all buffers of all element widths, all additive maps", "why_tests_cant": "Lengths and buffer contents are unbounded; the unit tests compare a few lengths, and the two loops of the right encoding and the chunks of the left encoding take different paths for each length.", "anchors": [{"file": "yacl/kernel/code/silver_code.h", "symbol": "SilverCode"}, {"file": "yacl/kernel/code/silver_code.cc", "symbol": "DualEncodeInplaceImpl"}, {"file": "yacl/kernel/code/silver_code.cc", "symbol": "DualEncodeImpl"}, {"file": "yacl/kernel/code/silver_code.cc", "symbol": "RightEncode"}, {"file": "yacl/kernel/code/silver_code.cc", "symbol": "LeftEncode"}, {"file": "yacl/kernel/code/silver_code.cc", "symbol": "InitLeftMatrix"}]}
{"id": "C118", "title": "Subfield VOLE kernel: roles, threads and steps", "statement": "A kernel's sender functions run only on an initialised sender and its receiver functions only on an initialised receiver. Multi-threaded evaluation on buffers of one length gives, for any number of threads and any order in which the tasks run, a VOLE c = a*delta + b over the whole buffers under the sender's delta, the same one for every order; zero threads or receiver buffers of different sizes throw. Streaming evaluation gives the same for every step size, and a session that fails makes the call fail.", "quantifier": "all buffer lengths, thread counts, step sizes, task orders and session randomness", "why_tests_cant": "Tests run one length with one thread count and one order the scheduler happens to pick; which part of the buffer a thread writes matters for every length that the thread count does not divide, and streaming is tested with one step.", "anchors": [{"file": "yacl/kernel/svole_kernel.cc", "symbol": "SVoleKernel::eval_multithread"}, {"file": "yacl/kernel/svole_kernel.cc", "symbol": "SVoleKernel::eval_streaming"}, {"file": "yacl/kernel/svole_kernel.cc", "symbol": "SVoleKernel::init"}, {"file": "yacl/kernel/svole_kernel.h", "symbol": "SVoleKernel"}]}
{"id": "C119", "title": "OT stores of both parties stay aligned", "statement": "Stores made by MockRots, MockCots and MockCompactOts hold, for every number of OTs and all choices, the sender's chosen message at the receiver; when both parties make the same NextSlice/Slice/ResetSlice calls, in any order and also after refused calls, each call succeeds for both or throws for both, the corresponding slices have the same size, and in every OT of every slice the receiver's block is the sender's message of the receiver's choice. Correlated stores keep the sender's messages delta apart; compact stores keep the choice in the last bit of the receiver's block. Empty stores and wrong numbers of choices throw.", "quantifier": "all numbers of OTs, choices, PRG outputs, deltas, sequences of slicing calls, slices and indices", "why_tests_cant": "Tests slice a store once or twice with fixed sizes; the sender counts in blocks and the receiver in OTs, so alignment must be kept by every sequence of calls.", "anchors": [{"file": "yacl/kernel/type/ot_store_utils.cc", "symbol": "MockRots"}, {"file": "yacl/kernel/type/ot_store_utils.cc", "symbol": "MockCots"}, {"file": "yacl/kernel/type/ot_store_utils.cc", "symbol": "MockCompactOts"}, {"file": "yacl/kernel/type/ot_store_utils.cc", "symbol": "MakeOtSendStore"}, {"file": "yacl/kernel/type/ot_store_utils.cc", "symbol": "MakeOtRecvStore"}, {"file": "yacl/kernel/type/ot_store.cc", "symbol": "OtSendStore::GetBlock"}, {"file": "yacl/kernel/type/ot_store.cc", "symbol": "OtRecvStore::GetChoice"}]}
{"id": "C120", "title": "AES blocks and key schedules are AES-128", "statement": "For every 128-bit key, the key structure set by AES_set_encrypt_key, and each one set by AES_opt_key_schedule for any number of keys, holds the key schedule of FIPS 197. AES_ecb_encrypt_blks gives, for any number of blocks, the FIPS 197 encryption of each block; AES_ecb_decrypt_blks with the key of AES_set_decrypt_key gives the FIPS 197 decryption and so undoes encryption; ParaEnc encrypts block i*numEncs+j under key i and touches nothing else. A key passed as an integer has the byte order of its memory representation.", "quantifier": "all keys, all blocks, all numbers of keys and blocks, all previous contents of the structures and outputs", "why_tests_cant": "a test vector checks one key and one block; the two schedules and the decryption keys must agree with the standard for all 2^128 keys", "anchors": [{"file": "yacl/crypto/aes/aes_intrinsics.h", "symbol": "AES_set_encrypt_key"}, {"file": "yacl/crypto/aes/aes_intrinsics.h", "symbol": "AES_set_decrypt_key"}, {"file": "yacl/crypto/aes/aes_intrinsics.h", "symbol": "AES_ecb_encrypt_blks"}, {"file": "yacl/crypto/aes/aes_intrinsics.h", "symbol": "AES_ecb_decrypt_blks"}, {"file": "yacl/crypto/aes/aes_opt.h", "symbol": "AES_opt_key_schedule"}, {"file": "yacl/crypto/aes/aes_opt.h", "symbol": "ParaEnc"}]}
{"id": "C121", "title": "OpenSSL curve points behave as values", "statement": "For every sequence of calls on an OpenSSL-backed curve group (generator, copy, affine conversion, addition, subtraction, doubling, negation, multiplication, double multiplication, division, each also in place), every call that returns computes the group operation it is named after on the current values of its arguments and changes only the variable it names; a call throws only on a variable without a point, on coordinates off the curve, on an integer of more than 8192 bits or on a division by a non-unit. Every point survives serialization in every format and conversion to coordinates; hashing to the curve returns the point of the first of at most 100 iterated hashes that is an x coordinate.", "quantifier": "every curve library satisfying the documented contract of OpenSSL, every finite sequence of calls with every integer argument, every point, format, message and hash function", "why_tests_cant": "points are shared pointers, so aliasing between variables and with the group's own generator depends on the history of calls, and scalars and points range over sets far too large to enumerate", "anchors": [{"file": "yacl/crypto/ecc/openssl/openssl_group.cc", "symbol": "OpensslGroup"}, {"file": "yacl/crypto/ecc/group_sketch.cc", "symbol": "EcGroupSketch::Div"}, {"file": "yacl/crypto/ecc/any_ptr.h", "symbol": "AnyPtr"}]}
{"id": "C122", "title": "Ed25519 points compute in the curve group", "statement": "For every program of calls on an Ed25519 group of the libsodium or lib25519 backend (generator, base multiplication, addition, subtraction, doubling, negation, multiplication and double multiplication by any integer, conversion to affine coordinates and back, serialization and back, decompression of the serialized bytes) nothing is thrown and the result is the point of the curve group that the program denotes; comparison decides equality of points of the generated group, equal points have equal hashes and coordinates, and decompression maps the RFC 8032 encoding of every curve point to that point and accepts no 32 bytes that encode no point.", "quantifier": "every finite program of calls with every integer scalar, every projective representation of every curve point, every 32-byte string, every library that meets its documentation", "why_tests_cant": "a point has a field's worth of representations, programs and scalars are unbounded, and the strings that encode no point are half of all strings", "anchors": [{"file": "yacl/crypto/ecc/libsodium/ed25519_group.cc", "symbol": "Ed25519Group"}, {"file": "yacl/crypto/ecc/libsodium/sodium_group.cc", "symbol": "SodiumGroup"}, {"file": "yacl/crypto/ecc/lib25519/ed25519_group.cc", "symbol": "Ed25519Group"}, {"file": "yacl/crypto/ecc/lib25519/lib25519_group.cc", "symbol": "Lib25519Group"}]}
{"id": "C123", "title": "Curve names lead to the right curve and library", "statement": "For every name, looking up a curve returns the first predefined curve that has the name among its name and aliases, ignoring case, and throws if there is none; the table of predefined curves loads without a conflict, every curve is found under each of its names with its form, field and security level, and the name of the found curve leads to the same curve again. Every library creates a group of the fitting kind for every curve it says it supports, OpenSSL the one with the curve's own identifier, and every curve in a library's table can be reached by name.", "quantifier": "every string, every table of curves, every predefined curve, alias and library", "why_tests_cant": "names are arbitrary strings, and whether two of 386 names in mixed case clash, or a library's key can be reached at all, depends on the whole table rather than on sampled names", "anchors": [{"file": "yacl/crypto/ecc/curve_meta.cc", "symbol": "GetCurveMetaByName"}, {"file": "yacl/crypto/ecc/curve_meta.cc", "symbol": "BuildMap"}, {"file": "yacl/crypto/ecc/ecc_spi.cc", "symbol": "EcGroupFactory::Register"}, {"file": "yacl/crypto/ecc/openssl/openssl_factory.cc", "symbol": "OpensslGroup::Create"}, {"file": "yacl/crypto/ecc/libsodium/sodium_factory.cc", "symbol": "Create"}, {"file": "yacl/crypto/ecc/mcl/mcl_ec_factory.cc", "symbol": "MclEGFactory::Create"}, {"file": "yacl/crypto/ecc/toy/factory.cc", "symbol": "Create"}]}
{"id": "C124", "title": "Element-wise calls on items act on exactly the right elements", "statement": "Calls of a field (or homomorphic-encryption) library on items apply the element operation to each element, in order, however the work is split among threads: calls that return an item never change memory that existed; in-place calls change exactly the elements of the destination; scalars are not mixed with vectors, vectors of different lengths and read-only destinations are refused; comparison and IsAll look at all elements; slices and resizing keep the elements in place.", "quantifier": "all element functions (including ones that throw), memories, items, overlaps, slices, and schedules of the parallel loop", "why_tests_cant": "the number of aliasing patterns and interleavings is unbounded; tests run one schedule on distinct vectors", "anchors": [{"file": "yacl/utils/spi/item.h", "symbol": "Item"}, {"file": "yacl/utils/spi/item.h", "symbol": "ResizeAndSpan"}, {"file": "yacl/utils/spi/item.h", "symbol": "SubItem"}, {"file": "yacl/utils/spi/sketch/scalar_call.h", "symbol": "CallBinaryFunc"}, {"file": "yacl/utils/spi/sketch/scalar_call.h", "symbol": "CallBinaryInplaceFunc"}, {"file": "yacl/math/galois_field/factory/gf_scalar.h", "symbol": "Equal"}]}
{"id": "C125", "title": "Galois field libraries compute in the field they name", "statement": "A GF_p field on MPInt computes the operations of the integers modulo p, and the GF_2^k fields those of GF(2)[X] modulo the irreducible polynomial; inverses and quotients exist exactly for non-zero divisors; the orders reported are those of the groups; a factory that offers itself can create the field; a field object keeps its modulus whatever other fields are created.", "quantifier": "all primes, all elements and integers, all exponents, all arguments of the factories and all sequences of created fields", "why_tests_cant": "the fields are far too large to enumerate, and the modulus of an existing field is changed by later calls only", "anchors": [{"file": "yacl/math/galois_field/factory/mpint_factory.cc", "symbol": "MPIntField"}, {"file": "yacl/math/galois_field/factory/intel_factory.cc", "symbol": "IntrinsicField"}, {"file": "yacl/math/galois_field/factory/intel_factory.h", "symbol": "IntrinsicField"}, {"file": "yacl/math/galois_field/factory/mcl_factory.cc", "symbol": "MclField"}]}
{"id": "C126", "title": "Threshold proxy re-encryption of messages", "statement": "A non-empty message encrypted by TPRE::Encrypt is returned by TPRE::Decrypt with the owner's private key, and by TPRE::DecryptFrags with the requester's key from the re-encryptions of any t or more proxies, in any order; data that are not the encryption of a message under the capsule's key, and damaged capsules, are refused.", "quantifier": "all groups of prime order, keys, thresholds, random draws, hash functions, messages, initial vectors, selections of proxies, forged ciphertexts", "why_tests_cant": "unboundedly many keys, draws, messages and selections", "anchors": [{"file": "yacl/crypto/experimental/tpre/tpre.cc", "symbol": "TPRE::Encrypt"}, {"file": "yacl/crypto/experimental/tpre/tpre.cc", "symbol": "TPRE::Decrypt"}, {"file": "yacl/crypto/experimental/tpre/tpre.cc", "symbol": "TPRE::ReEncrypt"}, {"file": "yacl/crypto/experimental/tpre/tpre.cc", "symbol": "TPRE::DecryptFrags"}]}
{"id": "C127", "title": "Fewer shares than the threshold reveal nothing", "statement": "Any fewer than threshold shares made by VerifiableSecretSharing::CreateShare have the same distribution for every secret; likewise the re-encryption keys of fewer than t proxies are independent of the value they share.", "quantifier": "all primes, thresholds, totals, points, pairs of secrets, sets of fewer than threshold positions, all random draws", "why_tests_cant": "a statement about the distribution over all random draws", "anchors": [{"file": "yacl/crypto/experimental/vss/vss.cc", "symbol": "CreateShare"}, {"file": "yacl/crypto/experimental/vss/poly.cc", "symbol": "CreatePolynomial"}, {"file": "yacl/crypto/experimental/tpre/keys.cc", "symbol": "GenerateReKey"}]}
{"id": "C128", "title": "Hash, XOF and HMAC objects compute the function of the bytes added since the last reset", "statement": "For every history of Reset, Update and CumulativeHash/CumulativeMac calls on a hash, SHAKE, BLAKE3 or HMAC object, no call throws and each result is the function (digest, stream prefix, HMAC under the constructor's key) of the concatenation of the data added since the last Reset, wherever it was cut and however often results were taken; longer SHAKE outputs extend shorter ones; the one-call functions agree with the objects; unknown algorithms are refused; any key is accepted by Hmac.", "quantifier": "all algorithms, keys, data, cuts and histories of calls", "why_tests_cant": "the number of ways to cut data and to interleave resets and results is unbounded; tests compare a few vectors", "anchors": [{"file": "yacl/crypto/hash/ssl_hash.cc", "symbol": "SslHash"}, {"file": "yacl/crypto/hash/ssl_hash_xof.cc", "symbol": "SslHashXof"}, {"file": "yacl/crypto/hash/blake3.cc", "symbol": "Blake3Hash"}, {"file": "yacl/crypto/hash/hash_utils.cc", "symbol": "Sha256"}, {"file": "yacl/crypto/hmac/hmac.cc", "symbol": "Hmac"}]}
{"id": "C129", "title": "BigInt programs keep to one library", "statement": "A program that takes all its big integers from one library (named explicitly or the default) never meets a library mismatch, computes exactly what that library's arithmetic gives on plain integers and keeps every number in that library; sums, differences, products, remainders and comparisons give the same outputs with every library; numbers of two libraries are never combined silently; the default library is the one BIGINT_LIB names, OpenSSL without it, and never changes once chosen.", "quantifier": "all programs over BigInt, all libraries, all register contents, all values of the environment variable over time", "why_tests_cant": "programs and their mixtures of libraries are unbounded; tests run fixed expressions per library", "anchors": [{"file": "yacl/math/bigint/bigint.cc", "symbol": "ApplyBinaryOp"}, {"file": "yacl/math/bigint/bigint.h", "symbol": "BigInt"}, {"file": "yacl/math/bigint/bigint_spi.cc", "symbol": "DefaultBigIntLib"}]}
{"id": "C130", "title": "The brpc transport delivers to the right peer and tells the truth", "statement": "A request arrives with the key, bytes, offset and length it was sent with; the receiving party hands it to the channel of the rank it names and to no other, refusing unknown ranks and unknown kinds without effect; Send returns normally only when the peer's channel has taken the request, and otherwise reports the network failure, the refusal or the abort; whatever is lost, unanswered or repeated on the way and whatever other parties do, a party receives from each peer each message at most once, unaltered, and every message whose requests got through; the chunk size of a context is never zero and respects the h2 window.", "quantifier": "all world sizes, pairs of parties, requests, histories of attempts with any losses and repetitions interleaved with any other traffic, all retry policies and option values", "why_tests_cant": "losses and interleavings of attempts are unbounded; tests run a few messages on loopback", "anchors": [{"file": "yacl/link/transport/brpc_link.cc", "symbol": "Push"}, {"file": "yacl/link/transport/brpc_link.cc", "symbol": "SendRequest"}, {"file": "yacl/link/transport/interconnection_link.cc", "symbol": "PackChunkedRequest"}, {"file": "yacl/link/transport/interconnection_link.cc", "symbol": "MakeOptions"}, {"file": "yacl/link/factory_brpc.cc", "symbol": "CreateContext"}]}
{"id": "C131", "title": "Keys, public-key encryption, signatures and certificates", "statement": "What is encrypted with a public key is decrypted by the holder of the secret key to exactly the plaintext; a signature made with a secret key is accepted with its public key, and Verify says yes exactly when the library finds the signature valid for the digest of the message; keys survive export and import in PEM and DER, in buffers and files, and exported public keys reveal nothing else; a certificate names exactly the given subject, key and days of validity and verifies with the signer's key; keys without secret part neither decrypt, sign nor export a secret.", "quantifier": "all keys, messages, randomness, file systems and subjects, and every library with the documented behaviour", "why_tests_cant": "keys and messages are unbounded; tests use one key and message", "anchors": [{"file": "yacl/crypto/key_utils.cc", "symbol": "MakeX509Cert"}, {"file": "yacl/crypto/key_utils.cc", "symbol": "ExportPublicKeyToDerFile"}, {"file": "yacl/crypto/pke/rsa_enc.cc", "symbol": "Encrypt"}, {"file": "yacl/crypto/pke/sm2_enc.cc", "symbol": "Encrypt"}, {"file": "yacl/crypto/sign/rsa_signing.cc", "symbol": "Sign"}, {"file": "yacl/crypto/sign/sm2_signing.cc", "symbol": "Verify"}]}
{"id": "C132", "title": "Post-quantum key encapsulation and signatures", "statement": "For every generated key pair, Decapsulate finds the secret Encapsulate returned, and Verify accepts what Sign returned, with and without context; all sizes are as announced; inputs of wrong size are refused and never make the library read outside them; exactly the enabled algorithms can be constructed and are listed.", "quantifier": "all algorithms with the documented behaviour, all keys, messages, contexts and randomness, all input sizes", "why_tests_cant": "inputs are unbounded; tests run one honest exchange", "anchors": [{"file": "yacl/crypto/pqc/kem.cc", "symbol": "Encapsulate"}, {"file": "yacl/crypto/pqc/kem.cc", "symbol": "Decapsulate"}, {"file": "yacl/crypto/pqc/sig.cc", "symbol": "Sign"}, {"file": "yacl/crypto/pqc/sig.cc", "symbol": "Verify"}]}
{"id": "C133", "title": "The Ristretto255 group computes in the group; X25519 keys agree", "statement": "With libsodium's Ristretto255 group every program of calls (sums, multiples, negatives, in place or not, with repeated variables, copies, serialization, hashing) yields the elements the group laws give; equality, hash, infinity and membership tests match the group; encodings are canonical and invalid bytes are rejected; hashing follows RFC 9380. With X25519 both parties of a key exchange obtain the same point for all keys.", "quantifier": "all programs of group calls of any length, all integers as scalars, all byte strings, messages and tags, all key pairs", "why_tests_cant": "Programs, aliasing patterns, scalars and byte strings are unbounded; tests sample a few", "anchors": [{"file": "yacl/crypto/ecc/libsodium/ristretto255_group.cc", "symbol": "Ristretto255Group"}, {"file": "yacl/crypto/ecc/libsodium/x25519_group.cc", "symbol": "X25519Group"}, {"file": "yacl/crypto/ecc/hash_to_curve/ristretto255.cc", "symbol": "HashToCurveRistretto255"}, {"file": "yacl/crypto/ecc/libsodium/sodium_factory.cc", "symbol": "kPredefinedCurves"}]}
{"id": "C134", "title": "libmcl curve groups compute in the curve group and read back what they wrote", "statement": "On the standard curves of the libmcl backend every sequence of calls on an EC group object (with the constant-time flag on or off) computes the group operations their names say on the values of their arguments and changes nothing but its target; SerializePoint followed by DeserializePoint gives the point back in every supported format and for every buffer that is large enough; bytes and coordinates that belong to no point are refused; HashToCurve maps every message to a point of the curve determined by the whole message.", "quantifier": "all programs, points, scalars, formats, buffer sizes, byte strings, messages and hash strategies, relative to a contract of libmcl", "why_tests_cant": "the serialization tests use exactly sized buffers, points are never updated through the shared generator, and no test feeds malformed bytes or compares the SM3 hashes of two messages on secp384r1", "anchors": [{"file": "yacl/crypto/ecc/mcl/mcl_ec_group.cc", "symbol": "MclGroupT"}, {"file": "yacl/crypto/ecc/mcl/mcl_ec_factory.cc", "symbol": "CASE_DEFINE"}, {"file": "yacl/crypto/ecc/group_sketch.cc", "symbol": "EcGroupSketch"}]}
{"id": "C135", "title": "FourQ group: programs, queries and bytes", "statement": "A program that calls the FourQ curve group in any order sees values: every call that returns has computed what its name says in the group of the curve and has changed its target only, whatever projective coordinates the points carry, and a call throws only on a variable without a point, on coordinates no point has, or on a division by a non-unit. IsInfinity, PointEqual, HashPoint and SerializePoint depend on the point alone and tell points apart; every point survives serialization; bytes and coordinates that are no point are refused; HashToCurve returns a point of the subgroup of prime order for every message.", "quantifier": "all programs over the group interface, all scalars, all projective coordinates of all points of the subgroup, all byte buffers, all messages", "why_tests_cant": "The coordinates a point carries depend on the whole history of the program; tests see a few histories and never the points outside the subgroup, short buffers or negative coordinates.", "anchors": [{"file": "yacl/crypto/ecc/FourQlib/FourQ_group.cc", "symbol": "FourQGroup::Add"}, {"file": "yacl/crypto/ecc/FourQlib/FourQ_group.cc", "symbol": "FourQGroup::Mul"}, {"file": "yacl/crypto/ecc/FourQlib/FourQ_group.cc", "symbol": "FourQGroup::Negate"}, {"file": "yacl/crypto/ecc/FourQlib/FourQ_group.cc", "symbol": "FourQGroup::CopyPoint"}, {"file": "yacl/crypto/ecc/FourQlib/FourQ_group.cc", "symbol": "FourQGroup::PointEqual"}, {"file": "yacl/crypto/ecc/FourQlib/FourQ_group.cc", "symbol": "FourQGroup::IsInfinity"}, {"file": "yacl/crypto/ecc/FourQlib/FourQ_group.cc", "symbol": "FourQGroup::DeserializePoint"}, {"file": "yacl/crypto/ecc/FourQlib/FourQ_group.cc", "symbol": "FourQGroup::HashToCurve"}]}
{"id": "C136", "title": "Pairing programs", "statement": "Programs that work with the BLS12-381 pairing group compute what the mathematics says. Every point a program holds is an integer multiple of a generator and every target element a power of the pairing of the generators, with exponents that follow from the same program on integers, where Pairing is multiplication; scalars may be negative or larger than the order. Comparing two target elements decides the equation between exponents modulo the order, so that signature verification with two pairings accepts exactly the multiple of the message hash by the secret key, and a product of MillerLoop results under one FinalExp is the product of the pairings.", "quantifier": "all programs of curve, pairing and target-group calls, all scalars and messages, all points", "why_tests_cant": "Bilinearity for all scalars and programs, and soundness of equation checks for all points, are not settled by sampled points; aliasing of the shared generator depends on the history of calls", "anchors": [{"file": "yacl/crypto/pairing/factory/mcl_factory.cc", "symbol": "MclPGFactory::Create"}, {"file": "yacl/crypto/pairing/factory/mcl_bls12_381.cc", "symbol": "MclPairingBls12381"}, {"file": "yacl/crypto/ecc/mcl/mcl_ec_group.cc", "symbol": "MclGroupT"}, {"file": "yacl/math/galois_field/factory/mcl_factory.cc", "symbol": "MclField"}]}
{"id": "C137", "title": "Link descriptions: what is set is what is used", "statement": "A link description read from a message has every setting the message carries and the documented default for every unset one. A networked link set up from a description has one channel per other party, and each channel uses the address, timeouts, retries, throttling, chunking, numbering and TLS settings of the description.", "quantifier": "all messages, descriptions, ranks and environments", "why_tests_cant": "the tests use default descriptions only", "anchors": [{"file": "yacl/link/context.h", "symbol": "ContextDesc"}, {"file": "yacl/link/ssl_options.h", "symbol": "SSLOptions"}, {"file": "yacl/link/factory_brpc.cc", "symbol": "FactoryBrpc::CreateContext"}, {"file": "yacl/link/factory_brpc_blackbox.cc", "symbol": "FactoryBrpcBlackBox::CreateContext"}, {"file": "yacl/link/transport/brpc_link.cc", "symbol": "BrpcLink::SetPeerHost"}, {"file": "yacl/link/transport/brpc_blackbox_link.cc", "symbol": "BrpcBlackBoxLink::SetPeerHost"}]}
{"id": "C138", "title": "In-process link: who gets connected to whom", "statement": "Contexts of the in-process factory are connected exactly when their descriptions are equal (same identifier and parties); a request is answered iff the rank exists; asking again gives the same context.", "quantifier": "all histories of requests from all threads, all hash functions", "why_tests_cant": "the tests make one session with one description", "anchors": [{"file": "yacl/link/factory_mem.cc", "symbol": "FactoryMem::CreateContext"}, {"file": "yacl/link/factory_mem.cc", "symbol": "CreateOrGetSession"}, {"file": "yacl/link/context.h", "symbol": "ContextDescHasher"}, {"file": "yacl/utils/hash_combine.h", "symbol": "hash_combine"}]}
{"id": "C139", "title": "Bulletproofs transcript binds what was put into it", "statement": "Two transcripts that reach the same state, and so give the same challenges, were given the same messages, numbers, points and scalars under the same labels in the same order, unless SHA-256 collides on inputs the runs hashed.", "quantifier": "all histories of calls", "why_tests_cant": "all histories", "anchors": [{"file": "yacl/crypto/experimental/zkp/bulletproofs/simple_transcript.cc", "symbol": "SimpleTranscript::AppendMessage"}, {"file": "yacl/crypto/experimental/zkp/bulletproofs/simple_transcript.cc", "symbol": "SimpleTranscript::AppendU64"}, {"file": "yacl/crypto/experimental/zkp/bulletproofs/simple_transcript.cc", "symbol": "SimpleTranscript::ChallengeBytes"}]}
{"id": "C140", "title": "Bit deposit, bit extract and Hamming weight", "statement": "pdep_u64 and pext_u64 give the same result on processors with and without the BMI2 instructions, namely bit deposit and bit extract as the instruction set defines them; the portable code never shifts by 64 or more and always ends; extracting undoes depositing and the other way round under the mask. HammingWeight counts the one bits of a 128 bit number and HammingDistance is a metric.", "quantifier": "all 64 bit words and masks, all 128 bit numbers", "why_tests_cant": "2^128 argument pairs, and the portable branch does not run on the machines the tests use", "anchors": [{"file": "yacl/utils/platform_utils.cc", "symbol": "pdep_u64"}, {"file": "yacl/utils/platform_utils.cc", "symbol": "pext_u64"}, {"file": "yacl/utils/hamming.h", "symbol": "HammingWeight"}, {"file": "yacl/utils/hamming.h", "symbol": "HammingDistance"}]}
{"id": "C141", "title": "Security parameters of modules and of the whole program", "statement": "The hash of a module name is CRC-32 of its bytes. A declared module has the parameters it was declared with, an unknown name has level 0, two names with the same hash do not compile. YACL_ENFORCE_SECPARAM passes exactly if every module of the program is at least as strong as required, whatever the order of includes and calls.", "quantifier": "all names, all lists of declarations, all histories of calls from all translation units", "why_tests_cant": "Name sets, include orders and call histories are unbounded; a test is one translation unit with three modules", "anchors": [{"file": "yacl/secparam.h", "symbol": "YACL_MODULE_DECLARE"}, {"file": "yacl/secparam.h", "symbol": "YaclModuleHandler::GetGlob"}, {"file": "yacl/secparam.h", "symbol": "YACL_ENFORCE_SECPARAM"}, {"file": "yacl/utils/compile_time_utils.h", "symbol": "crc32"}, {"file": "yacl/utils/compile_time_utils.h", "symbol": "COUNTER_READ"}, {"file": "yacl/utils/compile_time_utils.h", "symbol": "COUNTER_INC"}]}
{"id": "C142", "title": "Noise weight of silent VOLE reaches the security level", "statement": "GenRegNoiseWeight throws for a ratio outside of (0, 1/2]; otherwise the number of noise positions is a multiple of 8, at least 128, and the bias (1 - 2 ratio)^w left to a linear test is at most 2^-sec.", "quantifier": "all ratios and security levels", "why_tests_cant": "A continuum of ratios; tests use three", "anchors": [{"file": "yacl/secparam.h", "symbol": "GenRegNoiseWeight"}, {"file": "yacl/kernel/algorithms/silent_vole.cc", "symbol": "kMinDistanceRatio"}]}
{"id": "C143", "title": "Timer counts the time it was running", "statement": "CountMs of an ElapsedTimer is the time the timer was running since it was created or last restarted, whatever calls of Pause, Resume and Restart came before, less at most a microsecond for each pause and one for the count; a paused timer stands still and a running one never goes back.", "quantifier": "all histories of calls at all times", "why_tests_cant": "Histories and clock readings are unbounded", "anchors": [{"file": "yacl/utils/elapsed_timer.cc", "symbol": "ElapsedTimer::CountMs"}, {"file": "yacl/utils/elapsed_timer.cc", "symbol": "ElapsedTimer::Pause"}, {"file": "yacl/utils/elapsed_timer.cc", "symbol": "ElapsedTimer::Resume"}, {"file": "yacl/utils/elapsed_timer.cc", "symbol": "ElapsedTimer::Restart"}]}
{"id": "C144", "title": "Two-party protocol sessions never hang and never cross messages", "statement": "Two parties run the same sequence of OT and VOLE protocol calls over one link (base OT, IKNP, KOS, KKRT, SGRR, GYWZ, SoftSpoken, Gilboa VOLE, Ferret, MP-VOLE, silent VOLE, chosen-message OT), each call with the same parameters on both sides and any party as its sender. However their calls interleave, nobody waits for ever, every Recv returns the message the code there needs, with the number of bytes it reads, and nothing stays unread. Asking for malicious security runs the consistency checks.", "quantifier": "every sequence of calls, every parameter value, every role assignment, every interleaving of the two parties' link calls", "why_tests_cant": "tests run a few sizes with one scheduling; a missing or extra message shows only for some batch counts, and an unordered pair of calls only under some schedules", "anchors": [{"file": "yacl/kernel/algorithms/iknp_ote.cc", "symbol": "IknpOtExtSend,IknpOtExtRecv"}, {"file": "yacl/kernel/algorithms/kos_ote.cc", "symbol": "KosOtExtSend,KosOtExtRecv"}, {"file": "yacl/kernel/algorithms/kkrt_ote.cc", "symbol": "KkrtOtExtSend,PrcInit,RecvCorrection,SendCorrection"}, {"file": "yacl/kernel/algorithms/softspoken_ote.cc", "symbol": "OneTimeSetup,Send,Recv"}, {"file": "yacl/kernel/algorithms/ferret_ote.cc", "symbol": "FerretOtExtSend,FerretOtExtRecv"}, {"file": "yacl/kernel/algorithms/mp_vole.h", "symbol": "MpVoleSender,MpVoleReceiver"}, {"file": "yacl/kernel/algorithms/silent_vole.cc", "symbol": "SendImpl,RecvImpl"}, {"file": "yacl/kernel/algorithms/base_vole.h", "symbol": "GilboaVoleSend,GilboaVoleRecv"}, {"file": "yacl/crypto/tools/common.h", "symbol": "SyncSeedSend,SyncSeedRecv"}]}
{"id": "C145", "title": "Multi-threaded VOLE evaluation never deadlocks", "statement": "Two initialised subfield VOLE kernels of opposite roles call eval_multithread with the same number of tasks and outputs. However the threads of the two parties are scheduled and however many workers each pool has, some thread can go on until all tasks on both sides have returned; no thread reads a wrong message, no message stays unread, the work is finite, and the tasks together make all outputs.", "quantifier": "every number of tasks, outputs and workers, every interleaving of the threads of both parties", "why_tests_cant": "a deadlock between two thread pools and many links depends on the schedule; a test sees a handful", "anchors": [{"file": "yacl/kernel/svole_kernel.cc", "symbol": "eval_multithread"}, {"file": "yacl/utils/thread_pool.cc", "symbol": "ThreadPool"}]}
{"id": "C146", "title": "Byte views stand for the bytes they were made from", "statement": "A ByteContainerView made from a container, a Buffer, a pointer with a size or a C string shows exactly the bytes of its source, two views compare equal exactly when they show the same bytes, the result does not depend on anything outside the views, conversion to a string view keeps the bytes, and a view follows later writes to its source.", "quantifier": "every memory content, container, offset, size and pair of views, including empty and null ones", "why_tests_cant": "holds for every byte string and every way to make a view; tests try a few non-empty strings", "anchors": [{"file": "yacl/base/byte_container_view.h", "symbol": "ByteContainerView"}]}
{"id": "C147", "title": "Large GPU batches give the CPU's answer under every schedule", "statement": "CudaSm2Group::batchHashAndMul on a large batch runs two threads that pass two buffers back and forth. Whatever the scheduling and whatever GPU calls fail, the call returns, no buffer is touched by both threads at once, and every result is the one the CPU would compute; when no GPU call fails nothing is computed twice.", "quantifier": "every batch size, chunk size, input, outcome of each GPU call, initial buffer content and interleaving of the two threads", "why_tests_cant": "depends on the interleaving of two threads and on GPU failures; a test runs one schedule on one machine, and a GPU thread that never delivers goes unnoticed because everything is computed again", "anchors": [{"file": "yacl/crypto/ecc/cuda/cuda_sm2_group.cc", "symbol": "CudaSm2Group::batchHashAndMul"}, {"file": "yacl/crypto/ecc/cuda/kernels/sm2_kernels.cu", "symbol": "batchHashAndMulFromSm3Digests"}]}
{"id": "C148", "title": "GPU arithmetic of SM2 is the arithmetic of the curve", "statement": "Every field operation of the GPU code for SM2 (sum, difference, opposite, half, product, square, comparison, conversion to and from Montgomery form) on reduced operands gives a reduced result that stands for the value of that operation in the prime field, and every point operation (double, add, mixed add, subtract, negate, compare, lift) gives the point the group law of the SM2 curve prescribes, including when the operands are equal, opposite or at infinity; the generator is that of the CPU code.", "quantifier": "all reduced limbs, all pairs of points of the curve, all Jacobian representations", "why_tests_cant": "carries between limbs and the exceptional cases of the formulas occur on vanishing fractions of the inputs", "anchors": [{"file": "yacl/crypto/ecc/cuda/kernels/sm2_kernels.cu", "symbol": "fpMul"}, {"file": "yacl/crypto/ecc/cuda/kernels/sm2_kernels.cu", "symbol": "fpAdd"}, {"file": "yacl/crypto/ecc/cuda/kernels/sm2_kernels.cu", "symbol": "fpSub"}, {"file": "yacl/crypto/ecc/cuda/kernels/sm2_kernels.cu", "symbol": "fpHalve"}, {"file": "yacl/crypto/ecc/cuda/kernels/sm2_kernels.cu", "symbol": "pointDouble"}, {"file": "yacl/crypto/ecc/cuda/kernels/sm2_kernels.cu", "symbol": "pointAdd"}, {"file": "yacl/crypto/ecc/cuda/kernels/sm2_kernels.cu", "symbol": "pointAddMixed"}, {"file": "yacl/crypto/ecc/cuda/kernels/sm2_kernels.cu", "symbol": "pointEqual"}]}
{"id": "C149", "title": "GPU scalar multiplication is the multiple", "statement": "For every 256-bit scalar the recoding of the GPU code stays within its buffer and its digits add up to the scalar; the variable-base multiplication of any point of the curve and the fixed-base multiplication with the table the host builds both give the scalar multiple of the point, also for scalars above the group order.", "quantifier": "all 256-bit scalars, all points", "why_tests_cant": "2^256 scalars; the top carry of the recoding and the additions that meet the exceptional cases are reached by few of them", "anchors": [{"file": "yacl/crypto/ecc/cuda/kernels/sm2_kernels.cu", "symbol": "scalarToWnaf"}, {"file": "yacl/crypto/ecc/cuda/kernels/sm2_kernels.cu", "symbol": "scalarMulVarBase"}, {"file": "yacl/crypto/ecc/cuda/kernels/sm2_kernels.cu", "symbol": "scalarMulFixedBase"}, {"file": "yacl/crypto/ecc/cuda/cuda_sm2_group.cc", "symbol": "initCuda"}]}
{"id": "C150", "title": "GPU inversion, square root and return to affine coordinates", "statement": "The field inversion gives the inverse (zero for zero), the square root succeeds exactly on the squares and then gives a root, and the return to affine coordinates gives the same point. The block-wide version, in which the threads of a block share one inversion, gives every active thread the affine form of its own point, whatever the other threads hold and in whatever order the threads run between barriers.", "quantifier": "all elements, all contents of a block, all schedules of the threads between barriers", "why_tests_cant": "schedules of 256 threads over 16 phases cannot be enumerated; one point at infinity in a block affects the shared product", "anchors": [{"file": "yacl/crypto/ecc/cuda/kernels/sm2_kernels.cu", "symbol": "fpInv"}, {"file": "yacl/crypto/ecc/cuda/kernels/sm2_kernels.cu", "symbol": "fpSqrt"}, {"file": "yacl/crypto/ecc/cuda/kernels/sm2_kernels.cu", "symbol": "jacobianToAffine"}, {"file": "yacl/crypto/ecc/cuda/kernels/sm2_kernels.cu", "symbol": "blockExclusiveProdScan"}, {"file": "yacl/crypto/ecc/cuda/kernels/sm2_kernels.cu", "symbol": "jacobianToAffineBatchInv"}]}
{"id": "C151", "title": "GPU batch calls give the results of the CPU group", "statement": "A batch call of the GPU code for SM2 with n elements (multiplication by one scalar per point, by the same scalar, of the generator, s1 G + s2 P, sum, double, opposite, membership, hash of digests to the curve followed by a multiplication) writes, at every index below n and only there, the reduced affine coordinates of the point the group operation prescribes, for every schedule of the threads; hashing is try-and-rehash with the even ordinate and a limit of one hundred tries, which determines the point, so that it is the point the CPU code computes; failures are flagged exactly when they occur.", "quantifier": "all counts, all inputs, all schedules of the threads of a block", "why_tests_cant": "counts near the limits of int, contents of a whole block and schedules cannot be enumerated; a failing digest is astronomically rare", "anchors": [{"file": "yacl/crypto/ecc/cuda/kernels/sm2_kernels.cu", "symbol": "batchMul"}, {"file": "yacl/crypto/ecc/cuda/kernels/sm2_kernels.cu", "symbol": "batchMulBase"}, {"file": "yacl/crypto/ecc/cuda/kernels/sm2_kernels.cu", "symbol": "batchMulSameScalar"}, {"file": "yacl/crypto/ecc/cuda/kernels/sm2_kernels.cu", "symbol": "batchHashAndMulFromSm3DigestsKernel"}, {"file": "yacl/crypto/ecc/cuda/kernels/sm2_kernels.cu", "symbol": "hashToCurveTryAndRehashSmFromDigest"}, {"file": "yacl/crypto/ecc/cuda/kernels/sm2_kernels.cu", "symbol": "pointIsOnCurve"}, {"file": "yacl/crypto/ecc/openssl/openssl_group.cc", "symbol": "HashToCurve"}]}
{"id": "C152", "title": "GPU memory of SM2 groups is shared and released correctly", "statement": "Groups on the GPU may be created, moved and destroyed, and threads may make batch calls of any size and end, in any order and with any device call failing: no device block is freed twice; each buffer a call works on is a live block with room for its count, not shared with another buffer or thread, and stays so while the call runs as long as some group exists; the stream exists exactly while a group holds the device; every live block belongs to a running thread or is the generator table; a later call that asks for no more than an earlier one needs no new memory; when the last group goes, no buffer is left.", "quantifier": "all histories of creations, moves, destructions, batch calls and thread ends, all outcomes of the device calls, all sizes", "why_tests_cant": "tests create one group, make a few calls and never see a failing allocation or another thread's cleanup", "anchors": [{"file": "yacl/crypto/ecc/cuda/kernels/sm2_kernels.cu", "symbol": "ensureDeviceArray"}, {"file": "yacl/crypto/ecc/cuda/kernels/sm2_kernels.cu", "symbol": "registerWorkspaceCleanup"}, {"file": "yacl/crypto/ecc/cuda/kernels/sm2_kernels.cu", "symbol": "cudaSm2Init"}, {"file": "yacl/crypto/ecc/cuda/kernels/sm2_kernels.cu", "symbol": "cudaSm2Cleanup"}, {"file": "yacl/crypto/ecc/cuda/kernels/sm2_kernels.cu", "symbol": "copyTableToConstantMemory"}, {"file": "yacl/crypto/ecc/cuda/cuda_sm2_group.cc", "symbol": "initCuda"}]}
{"id": "C153", "title": "GPU hash of a digest is SM3", "statement": "For every message of 32 bytes the hash the GPU code computes when it maps digests to curve points is the SM3 digest the standard GM/T 0004 defines, and the standard admits no other digest; the point for a digest is the one of the first of 100 abscissas (the digest, its SM3 hash, and so on, read big-endian modulo the field prime) that has one, with even ordinate, and a failure is reported when none has.", "quantifier": "all messages of 32 bytes", "why_tests_cant": "a test compares a few digests; the hash must agree on all 2^256 messages or GPU and CPU parties map some inputs to different points", "anchors": [{"file": "yacl/crypto/ecc/cuda/kernels/sm2_kernels.cu", "symbol": "sm3Hash32"}, {"file": "yacl/crypto/ecc/cuda/kernels/sm2_kernels.cu", "symbol": "rotl32"}, {"file": "yacl/crypto/ecc/cuda/kernels/sm2_kernels.cu", "symbol": "loadBe32"}, {"file": "yacl/crypto/ecc/cuda/kernels/sm2_kernels.cu", "symbol": "storeBe32"}, {"file": "yacl/crypto/ecc/cuda/kernels/sm2_kernels.cu", "symbol": "digestToSm2X"}, {"file": "yacl/crypto/ecc/cuda/kernels/sm2_kernels.cu", "symbol": "hashToCurveTryAndRehashSmFromDigest"}]}
