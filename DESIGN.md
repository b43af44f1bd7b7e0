# Formal model of secretflow/yacl in Lean 4: design

Source: /repo (C++), read as text. Nothing is built or executed. The model is written by hand, function by
function; each definition cites the file and lines it models and says where it simplifies.

## Layout

Each topic has a directory `lean/Verif/<Topic>/` with

* `Model.lean`: the port of the code (definitions only, each with a citation),
* `Spec.lean`: the small specification the property is stated against, independent of the model,
* `Lemmas.lean`: proof machinery,
* `Props.lean`: the property theorems, each followed by a non-vacuity `example` on a concrete non-trivial case.

`lean/Verif.lean` imports everything. Later topics keep model, specification and theorems in one or two files; the split is
then by sections inside the file.

## Trusted base

* Lean 4.33.0 kernel; axioms `propext`, `Classical.choice`, `Quot.sound` only. `axioms.txt` lists, for every theorem of the manifest,
  the axioms it depends on, as printed by `#print axioms`.
* No own axioms, no `sorry`, no `native_decide`, no `bv_decide`.
* The faithfulness of the hand-written model to the C++ text (mutation-tested, see `seeded/LOG.jsonl`).
* Crypto primitives (AES, PRG, hashes, elliptic curves, OpenSSL), brpc/protobuf transport, the C++ standard library and
  the compiler are not modelled; primitives appear as arbitrary functions the theorems quantify over.
* Concurrency is modelled as interleaving of atomic steps at mutex/condition-variable granularity.

## Conventions

* C++ undefined behaviour and exceptions are distinct outcomes of the model (never silently totalised).
* Where the code violates the English property, the negation is proved on a concrete witness (`*_violated`), and what does
  hold is proved under the suffix `_partial`.

## Plan per property

* **C01** Segment tree is an exact set of ids. Model the std::map as a sorted list of half-open segments and port Insert/Contains/Count line by line. Invariant (sorted, non-empty, separated) by induction over inserts; refinement to the finite set of inserted ids.
* **C02** Segment-count test proves that ids 1..n all arrived. Consequence of the C01 invariant; the close-handshake predicates are ported literally.
* **C03** Channel keys are decoded to exactly what was encoded. Keys as byte lists. First-occurrence search for the separator, decimal printing and parsing of the sequence number; round-trip by induction on the key.
* **C04** Each message is delivered at most once and unmodified. Receiver as a state machine over transport requests and Recv calls; invariant over all histories (no bound) relating receive buffer, received-id set and delivered log to what the sender sent.
* **C05** Chunked messages are reassembled exactly. Reassembly state machine; invariant: bytes at received offsets equal the message, counter = size of received chunks. Arbitrary list of chunk arrivals.
* **C06** Chunk splitting covers the message exactly. Arithmetic plus induction on chunk index.
* **C07** Chunk writes stay inside the reassembly buffer. Out-of-bounds write is a distinct outcome of the model. Proved safe for requests with equal totals (_partial); concrete counterexample proved for inconsistent totals.
* **C08** Throttle window bounds unacknowledged messages. Waiting predicate ported; consequence: number of unacked sequence ids.
* **C09** Closing a link loses no message. Two-party transition system with messages/acks/fins in unordered multiset networks; inductive invariant; theorem about all reachable states.
* **C10** Shutdown handshake cannot deadlock. Same transition system; progress theorem from the invariant.
* **C11** Send retry policy is bounded and faithful. Retry loop ported as recursion on remaining retries over an arbitrary outcome stream; stated against an independent spec (first non-retryable/success index).
* **C12** Retry options read from a descriptor mean what they say. Constructor ported; negation with witness; partial for the other three fields.
* **C13** A synchronous Send that returns means the message was handed to the transport. Task execution ported; negation with witness when exit_if_async_error is false; partial for the other configuration.
* **C14** Message ids of a context never collide. Id strings as character lists; injectivity of decimal printing; induction over histories.
* **C15** Child contexts get ids distinct from each other and from their parent. Negation (Spawn() then Spawn("0")); partial: two unnamed, or two named with distinct names.
* **C16** Ring neighbours are consistent. Modular arithmetic.
* **C17** Barrier: nobody leaves before everybody has arrived. W-party transition system, mailbox counters; knowledge invariant: having finished round r implies 2^r predecessors have entered.
* **C18** Broadcast gives every party the root's data. Tree shape by port of the bit loop; message-passing transition system and functional result.
* **C19** Gather, AllGather and Scatter put each party's data in its rank slot. Transition system / functional model of send-then-receive for all schedules.
* **C20** Collectives cannot deadlock. Progress theorems for the transition systems above.
* **C21** Cuckoo index places every item exactly once. Port of Insert with eviction loop; invariant by induction over evictions and inserts.
* **C22** Parallel loops cover the range exactly once. Port of the chunk arithmetic; partition of the range by induction.
* **C23** parallel_reduce equals the sequential reduction. Port of reduce over chunk results; equality with sequential fold.
* **C24** Thread pool runs every submitted task exactly once, in submission order of start. Transition system with queue, workers and stop flag; invariants.
* **C25** 128-bit integers survive split and recombination. BitVec 128/64; kernel-level bit-vector reasoning (no bv_decide).
* **C26** Serialized values deserialize to themselves. msgpack encoder/decoder on byte lists per size class; round-trip by structural induction.
* **C27** Pre-computed serialized size is the real size. Size function against encoder length.
* **C28** Matrix transposes transpose. Bit-matrix as function/list of BitVec 128; each Eklundh level is a coordinate swap; induction on levels.
* **C29** Circuit executor computes the circuit. Port of Exec as fold over gates; against a denotational circuit semantics.
* **C30** A reused circuit executor evaluates the new inputs. Negation with witness; partial for a fresh executor.
* **C31** SHA-256 circuit input is the FIPS padding. Port of PrepareSha256Input; against FIPS padding spec.
* **C32** A key-value store returns the last value written. Port of both stores; negation for the memory store on overwrite; partial for single writes.
* **C33** CSV data written is read back unchanged. Port of writer and reader line splitting; round-trip.
* **C34** CSV seek is equivalent to reading from the start. Port of Seek with row-offset cache; invariant over histories.
* **C35** OT store slices are disjoint and stay inside the store. Port of SliceBase; invariants over histories.
* **C36** Copying COT blocks returns the slice's own blocks. Port; negation with witness; partial for slices with no writes... see notes.
* **C37** IKNP extension produces correlated OTs. Functional model over bit matrices with abstract PRG.
* **C38** KOS extension accepts honest runs and is correct. Same plus check computed in an abstract commutative ring of characteristic 2 / GF(2^64) model.
* **C39** (n-1)-out-of-n OT gives all seeds but one. Functional port of the tree expansion with an abstract PRF; induction on levels.
* **C40** Half-tree single-point COT is correct. As C39 with abstract hash.
* **C41** KKRT OPRF: receiver and sender agree on the receiver's input. Functional port; abstract code, hash and PRG.
* **C42** Multi-point VOLE correlation. Functional port over an abstract commutative ring.
* **C43** LPN code reads only inside its input and is linear. Port over Nat/BitVec; xor-linearity by induction.
* **C44** Distributed point function is a point function. Port of key generation and evaluation over an abstract PRG and BitVec 128 seeds; induction over levels.
* **C45** Full-domain DPF evaluation agrees with the point function. Port of traversal; induction.
* **C46** Distributed comparison function is a comparison. As C44, MSB first.
* **C47** Punctured PRF key evaluates like the full key off the punctured point. As C44.
* **C48** Secret sharing recovers the secret. Lagrange interpolation over ZMod p with Mathlib polynomials or direct proof.
* **C49** Commitment check accepts exactly the correct shares. Module over ZMod n.
* **C50** Sumcheck is complete and binds the final claim. Port over an arbitrary commutative ring/field; induction over rounds.
* **C51** Zero check and one check are complete. As C50.
* **C52** Threshold proxy re-encryption decapsulates to the same key. Abstract group (module over ZMod q).
* **C53** Searchable index returns every stored entry. Port; negation for more than 100 entries; partial otherwise.
* **C54** Cached PRG is the key stream. Port of the budget cache; refinement to stream; negation for bool.
* **C55** Re-seeding a PRG restarts its stream. Negation with witness; partial when cache is exhausted.
* **C56** Pseudo-random fill is a prefix-consistent counter stream. Port with abstract block cipher.
* **C57** Mersenne reduction returns the canonical residue. Port on BitVec/Nat; negation for 64/128-bit; proof for the small types.
* **C58** DRBG Fill success means all bytes were generated. Port with abstract generator; negation with witness; partial without reseed.
* **C59** GF(2^64)/GF(2^128) multiplication is field multiplication. BitVec carry-less multiplication; ring laws; quotient by the modulus polynomial.
* **C60** Integer helpers are exact. Arithmetic.
* **C61** MPFSS parameters describe a partition and choices encode the indexes. Port of the parameter class; UB outcome for SetIndexes.
* **C62** In-memory link delivers what was sent. Port of the mem channel; induction over histories.
* **C63** Contexts sharing channels never use each other's message ids. Unique parsing of ids from the right end (last separator outside a byte class).
* **C64** Point-to-point messages pair up in order. Induction over both histories; the ids are a function of the number of earlier messages in that direction only.
* **C65** Sub-worlds are consistent. Port of the rank-map loop; induction over the request.
* **C66** MinCollidingHashIdx is the least hash index of an occupied bin. Consequence of the C21 invariant plus induction over the search loop.
* **C67** Exceptions of loop bodies are not lost. Port of the wait loop; induction over tasks.
* **C68** Parallel loops respect the grain size. Arithmetic on the ported chunk computation.
* **C71** Circuit files are read back faithfully or refused. Model the line reader (including getline at end of file), the word splitter and SimpleAtoi on characters; prove render/read round trip by induction over words and gates; arity from the reader's checks; the truncation and malformed-line claims are false of the code, shown by concrete files.
* **C69** Buffer keeps its bytes. Heap of allocations plus buffers with the four fields; reachable states by induction over calls; per-operation theorems on the visible bytes with a frame condition. Negative resize is accepted by the code (violated theorem).
* **C70** Buffer memory is freed exactly once with its own deleter. Invariant over the heap model: unique live owners, log of deleter calls without duplicates, allocation kind equals deleter. Finding: deleter called with a null pointer after release.
* **C72** Stealing a store's blocks returns them. Model StealBlkBuf with Reset and its check; the code always throws, so the negation is proved for every store.
* **C73** Universal hash weights. Model both loops over the modelled multiplication; prove by induction against powers in GF(2)[X]/(f); the code breaks it when the last index is 0 or 1, proved as a negation.
* **C74** KOS consistency check catches inconsistent choices. Model the sender's row check over the modelled span product; linear algebra in GF(2^64) from C59.
* **C75** KOS check message hides the choices. Violated: the bits come from a default Prg<bool>, whose first 112 outputs are false; prove the bits are zero and that a challenge reveals a word of choices.
* **C76** Mixed generator calls never repeat key stream. Invariant relating cache window and counter, induction over the call sequence.
* **C77** Single-point OT consistency proof binds the sender. verifyCheck over abstract hashes; equality of committed digest lists
* **C78** Multi-point functional secret sharing. Port of both variants over an abelian group; blocks by the single-point theorem C40, sums by commutativity.
* **C79** VOLE from correlated OT. Port; linear algebra in the field of C59.
* **C80** Silent VOLE delivers a VOLE correlation. Composition of C61, C79, C42 and C43 over an ideal OT extension.
* **C81** Key derivation returns the requested bytes. Port with 32/64-bit arithmetic; closed form of the loop; the edge where the int block count overflows is stated too.
* **C82** Evaluate computes the multilinear extension. Model: the in-place folding rounds. Proof: induction on variables against the explicit sum over the hypercube.
* **C83** Matrix product through extensions. Model: both functions over the model of Evaluate. Spec: the row-major product matrix. Proof: splitting lemma for extensions over concatenated points.
* **C84** Lookup argument is complete and sound. Model: Setup, GetClaimedSums, Verify over the sumcheck and zero-check models. Proof: partial fractions with distinct poles have few zeros.
* **C85** Generator state synchronisation. Model the byte serialisation of the context and the two halves of the protocol; round trip by byte slicing, agreement by induction over the calls.
* **C86** dynamic_bitset is an array of bits. Every member function modelled on lists of w-bit blocks; a per-bit characterisation of each, then refinement of a list-of-bits program by induction on the program
* **C87** dynamic_bitset queries, order and strings. Queries modelled block by block and proved equal to list functions under the invariant that C86 maintains
* **C88** MPInt byte formats, bit access and native conversions. MpInt/: numbers as (sign, used, digit array) with digit width D; byte loops with a 64-bit cache; invariant 'the bytes below pos are those of the value and the cache is the rest'; values via Nat.ofDigits/digits.
* **C89** MPInt quotients round down, remainders are least residues. MpInt/Prime.lean: wrappers over truncated division (mp_div) and floor remainder (mp_mod); equality with Int.fdiv/Int.emod; violated for 0<|a|<|b| of opposite signs and for Mod(mp_digit) of negative numbers.
* **C90** Fast safe primes are safe primes; RandomLtN stays below its bound. MpInt/Prime.lean: the sieve over delta and the attempt loop as functions of the random bytes; Pocklington's criterion from the order of 2 modulo a prime factor; a counting argument shows some delta always passes the filter, so the tested p is always 2q+1 for the current q.
* **C91** Inner product argument: verdict, completeness and soundness. Scalars are a field, points a module over it, hashes and encodings arbitrary functions. The s vector is shown equal to the closed form of the folding; completeness by induction on the rounds; soundness by interpolation over four challenges per round and induction. Completeness fails when some L or R is the identity (Verify throws), shown separately.
* **C92** Range proofs accept values in range and reject values out of range. model party, dealer and verifier over a field and a module; the honest verdict is computed in closed form, completeness and rejection follow; soundness by comparing coefficients of the challenges
* **C93** OPRF output and blindness. Oprf/Model.lean, Oprf/Props.lean: client state machine over an abstract group of prime order; invariant on the cached inverse by induction over histories. Finding: RefreshBlind keeps the cached inverse of the old blind (`C93_refresh_violated`).
* **C94** VOPRF proofs. Oprf/Verifiable.lean: the composite loops of both sides against weighted sums, verdict of VerifyProof as an equation, special soundness in the group.
* **C95** OPRF context strings and key derivation. Oprf/Context.lean. Findings: FromContextString accepts no string (`C95_roundtrip_violated`); the retry of DeriveKeyPair writes past its buffer (`C95_derive_partial` says exactly when).
* **C96** Affine Weierstrass arithmetic is the curve group. Model (Ecc/Weierstrass.lean) of Add, Negate, Mul, SlowCustomPow over 60-bit digits and the derived operations of group_sketch.cc on integers; refinement to Mathlib's group of points of an affine Weierstrass curve through the relation Represents. Negation of a point with y = 0 returns a non-reduced coordinate (C96_negate_violated) and doubling such a point throws; the theorems on multiplication assume an odd group order that kills the point, which excludes those points. Hash to curve and serialisation are not modelled here.
* **C97** The X25519 group multiplies by the clamped scalar. Model (Ecc/Montgomery.lean) of the masks, the conditional swap, the 255 ladder steps and the final inversion on integers; x-only doubling and differential addition proved from Mathlib's affine group law (Ecc/XOnly.lean) and the ladder invariant by induction. Primality of 2^255-19 and of the order by Pocklington certificates evaluated in the kernel (Ecc/Primes.lean). Multiplication is not the EcGroup one: by 1 it does not return the point (C97_one_violated), and Negate does not negate (C97_negate_violated). Hashing to the curve is not modelled.
* **C98** SoftSpoken OT extension delivers correct OTs; compact mode hides nothing. Model setup (per-tree SGRR), the in-place XOR reduction, both GenSfVole functions with persistent buffers, super-batch and batch framing, the check and the output loops; prove the reduction equals the index-bit sums and derive the VOLE relation, transposition and outputs. Show by an explicit eavesdropper that compact mode reveals all choices.
* **C99** Ferret OT extension delivers correct COTs for any number of batches. Kernel/Ferret*.lean: stores with absolute slices, trees by C40's single-point COT, check by C73's hash over GF(2^128), code by C43's encoder; induction over batches. Choices: noise function of the base choices. The cheetah variant reads the noise from the code's secret (violated).
* **C100** OT kernel: any history of calls yields correct OTs and hides the choices. Kernel/OtKernel*.lean: two-party state machine over C98 and C99; invariant over histories. Hiding fails: the Ferret kernel reuses its base COTs (noise cancels between two calls) and compact SoftSpoken leaks the base choices, so init's transcript fixes all later choices.
* **C101** Correlation-robust hashes: batch and single versions compute the documented function. Crypto/CrHash*.lean: SSE shuffles on lanes, batch loops with offsets. Batch versions equal the documented function; the single-block Sigma drops half of the block (violated).
* **C102** Symmetric encryption object: streams decrypt, whatever the cuts. model the OpenSSL context as chaining block or stream position over an arbitrary invertible block cipher, the piece loop and the object; prove update is additive, decryption inverts, loop = one update; prove the const and RP violations
* **C103** Authenticated encryption and digital envelopes accept exactly honest ciphertexts. model both directions over abstract primitives; prove acceptance as an equivalence and the round trips; prove the three violations
* **C104** Hash to curve follows RFC 9380. Model (Ecc/HashToCurve.lean) of the utilities and the four suites over an abstract hash of fixed digest size. Specification: expand_message_xmd, hash_to_field, simplified SWU and Elligator 2 as in the RFC, Mathlib's group law. Proof: primality certificates for the NIST primes, Euler's criterion, absence of points of order two on the NIST curves by a certificate for X^p - X. Violations: HashToScalar of P-384 and P-521 always throws; Curve25519 throws when the two mapped points share an x coordinate or the cofactor kills the sum.
* **C105** Searchable encryption: a search returns the records that match. Sse/Search.lean: setup and search over abstract hashes, group and key stream, on top of the C53 table model. Exact result, no false negatives, exact throw condition; partial because only the first hundred records of a keyword are seen and the evaluator reads expressions its own way (C106).
* **C106** Searchable encryption: Boolean queries. Sse/Expr.lean: string replacement, tokens and the two stacks. Proved: right-nested reading for v2..v9 and every map order, plain AND and OR chains; violated: usual precedence, ten or more keywords, parentheses, missing operands.
* **C107** Searchable encryption: saving and loading the database. Sse/Persist.lean: byte-level files. Proved: keys and tags round trip, table values round trip; violated: the labels are not saved, so every search on the loaded database returns nothing, and IVs are not saved.
* **C108** Plug-in factory picks the best library that supports the request. factory as two lists with the multimap's stable order; invariant of registration by induction; decision logic of Create; name normalisation by strong induction
* **C109** Montgomery spaces and fixed-base exponentiation compute base^e mod n. table and digit loop over an abstract space, invariants at word boundaries; GMP reduction limb by limb with a value invariant; libtommath and OpenSSL reductions by their documented contract
* **C110** Big integer backends agree. Numbers are Int, library calls by their manuals; bytes, carries, sign bit, rounding correction modelled line by line (Verif/BigInt/Backends*.lean); agreement with the digit-level MPInt model of C88. Quotient, shift, negative modulus, Lcm(0,0), Get of the least value and GMP's unseeded generator are shown to break the claim.
* **C111** Native random generator draws on its entropy. state machine over an abstract cipher (Verif/Drbg/Gm.lean); relation between two runs with different entropy kept by induction over the history. The property fails: derive hands a null length pointer to EVP_CipherUpdate and ignores its refusal, so outputs are constants of the cipher; ReSeed demands 32 bytes where no source gives 32, so request 1025 throws; the provider's get_seed returns uninitialised memory. The refusal of a null pointer by OpenSSL 3 is an assumption (parameter NullLen); the other choice is a buffer overrun.
* **C112** Random helpers and the replayable shuffle. loops modelled index by index (Verif/Drbg/Rand.lean); bits by loop invariants, evenness by counting residues, the shuffle by induction on the loop index with a unique code. RandSeed has only 64 random bits and GetSeed drops half the seed: proved as violations.
* **C113** Black-box transport: topics, queues, sending, stopping, ranks. Queues as functions from topics to lists, histories by induction; start/stop as a two-thread transition system; the environment as a list of strings folded into an ordered map, with a theorem for every permutation. Counterexamples for hyphens in names, a lost pop answer, a stop before the thread starts, and `=` in values.
* **C114** Base oblivious transfer gives the chosen block. Both implementations as one function of the batch width over an arbitrary commutative group (the external library by its equations); arrays as lists with indexed writes; correctness for all lengths by an invariant over batches, hiding by a bijection of the receiver's secrets. The two builds disagree on the message length: shown.
* **C115** Rank-1 constraint proofs: same circuit, completeness, unsatisfied constraints rejected. gadgets as a free monad of calls run by prover and verifier; induction on the gadget for agreement; the multi-scalar multiplication of Verify expanded on the proof of Prove with the inner product argument's scalars (C99); roots of a polynomial in z; e_blinding as the integer it is (violated)
* **C116** Bulletproofs proofs survive being written and read. writers and readers over byte lists with out-of-buffer accesses as a separate outcome; round trips by reading at the offsets of the written parts; integers tied to the MPInt model (C88); the outcome of R1CSProof::ToBytes characterised for every proof (violated: overflow)
* **C117** The Silver code computes xL + xR * R^-1 * L. Model the constructor (probing into a sorted set), the chunked circulant product, the two back-substitution loops with 32-bit offsets, and the lock-step versions; prove the matrix equations by loop invariants.
* **C118** Subfield VOLE kernel: roles, threads and steps. Sessions are functions from buffer parts to buffer parts; the tasks of one call are folded in an arbitrary permutation. The parts are shown disjoint and covering, which gives the VOLE and the independence of the order; the sessions are instantiated with the silent VOLE over Silver codes (C80, C117). Streaming is refuted beyond one step, with a theorem for one step; swallowed exceptions are refuted.
* **C119** OT stores of both parties stay aligned. Uses the store model of C35. The sender's counters are shown to be the receiver's times the blocks per OT, by induction over the calls; reading then reduces to the whole store. Delta 0 in compact mode is refuted.
* **C120** AES blocks and key schedules are AES-128. FIPS 197 written as a separate specification (Aes/Fips.lean); the x86 instructions from their manual definitions on sixteen bytes; the code line by line (Aes/Model.lean). Key schedules by induction over the rounds, ciphers by induction, inverse of MixColumns by linearity and all 256 bytes.
* **C121** OpenSSL curve points behave as values. heap of EC_POINT cells plus variables holding pointers; simulation of a value semantics by induction on the program under an ownership discipline; concrete runs refute it without the discipline, on cofactor curves and for special points
* **C122** Ed25519 points compute in the curve group. The wrapper code (`IsInfinity`, scalar reduction, negation, conversion, decompression by the square root formula for p = 5 mod 8, comparison, checks) is modelled over ZMod p; the point functions of the libraries are parameters with their documented contract. Programs are proved by induction against an abstract group with coordinates; decompression by Euler's criterion; violations with witnesses on every curve that meets the contract.
* **C123** Curve names lead to the right curve and library. `BuildMap` and `GetCurveMetaByName` for an arbitrary table, by induction over the table; then the real table of 245 curves and the tables of the libraries, copied as data and evaluated by the kernel (they are the whole domain, not a sample).
* **C124** Element-wise calls on items act on exactly the right elements. memory as arrays of cells, items as scalars or spans, the parallel loop as any order of the indices with any assignment to tasks; fold invariants; concrete runs show what overlapping operands and exceptions do
* **C125** Galois field libraries compute in the field they name. values in ZMod p and AdjoinRoot f; the exact code of Pow and Inv; mcl's static modulus as state shared by field objects
* **C126** Threshold proxy re-encryption of messages. Compose the capsule model (C52) and the SM4-MTE model (C103).
* **C127** Fewer shares than the threshold reveal nothing. Bijection of the random draws: add the coefficients of a polynomial that vanishes at the known points and has the difference of the secrets as constant term.
* **C128** Hash, XOF and HMAC objects compute the function of the bytes added since the last reset. Objects modelled over a state machine for OpenSSL contexts; abstraction relation to the absorbed bytes and induction over the history.
* **C129** BigInt programs keep to one library. Register programs over (library, integer) pairs; simulation by plain integers; factory theorem C108 for the default.
* **C130** The brpc transport delivers to the right peer and tells the truth. World of servers (rank to channel); projection of a world history to each pair of parties by induction; composition with C04; retry loop refined to attempts.
* **C131** Keys, public-key encryption, signatures and certificates. OpenSSL as a structure of functions with a contract; the two-call buffer pattern, dispatch on key kinds and certificate assembly modelled; equivalences with the library's answers.
* **C132** Post-quantum key encapsulation and signatures. liboqs as a structure of functions reading through pointers; undefined behaviour as an outcome; case analysis on sizes.
* **C133** The Ristretto255 group computes in the group; X25519 keys agree. Model all functions of both groups over an abstract libsodium with its documented contract; prove by induction over programs that they simulate the abelian group; parse/serialize as canonical bijection; hashing against the RFC 9380 expansion of C104; X25519 with the clamped scalars of RFC 7748 over the multiples of the base point, using primality of the order. Negative theorems for invalid points in Mul, trailing bytes, domain separation, the RO suite, in-place multiplication and clamping.
* **C134** libmcl curve groups compute in the curve group and read back what they wrote. Heap of points and variables as in C121; a step function for libmcl, shown equal to the C121 step with reduced scalars, so that value semantics follows by the C121 simulation; byte-level model of serialization with the write count of the code; counterexamples as theorems.
* **C135** FourQ group: programs, queries and bytes. FourQlib is a parameter with a contract (addition and doubling on extended coordinates, multiplication on the subgroup, encoding of points of the curve); the C++ around it is modelled call by call and simulated by the specification of C121. A curve over F_13 meets the contract.
* **C136** Pairing programs. Model: one heap of untyped points of both groups with the two static generators in its first cells, programs of calls with outcomes ok, throws, undefined. Proof: simulation by a value semantics for programs that update in place only points of their own; a homomorphism from the same program on integers; order of the pairing of the generators. Counterexamples for the shared generator, swapped groups and the ignored domain separation tag.
* **C137** Link descriptions: what is set is what is used. Model the description, the message, and the configuration each factory hands to channels, brpc and the server; prove that the configuration obeys the description, field by field, and which descriptions are refused; the fields that are dropped (chunks in flight, client cipher suites, black-box error and numbering flags) and the default protocol of black-box links are violations.
* **C138** In-process link: who gets connected to whom. Model the session table as the standard library's hash table sees it (hash code and equality), with the hash of texts and numbers as parameters; prove by an invariant over histories that two contexts are connected iff the descriptions are equal and hash alike. The hasher reads settings that equality ignores, so equal descriptions can miss each other: a violation.
* **C139** Bulletproofs transcript binds what was put into it. Reuse the transcript functions of the Bulletproofs model; prove by induction from the last call that equal states force equal inputs or give a collision among the inputs hashed, and that the encoding of a call is uniquely readable for labels under 99 bytes. Longer labels are not (one length byte; the word challenge reads as a length of 99): violations.
* **C140** Bit deposit, bit extract and Hamming weight. The two loops with shifts that fail when out of range; induction on the number of one bits with the invariant p = 64 - popcount(m).
* **C141** Security parameters of modules and of the whole program. The compiler's knowledge of a translation unit as a state, declarations as steps; the table of CRC-32 against the bitwise definition, linearity; the global parameter as a fold.
* **C142** Noise weight of silent VOLE reaches the security level. The formula over the reals, without the rounding of double; floor against powers.
* **C143** Timer counts the time it was running. Calls with clock readings as a history; the running time as a separate recursive specification; invariant between the two.
* **C144** Two-party protocol sessions never hang and never cross messages. Model each function as its list of sends and receives (kind, number, bytes) as a function of its parameters; two FIFO queues and a scheduler. Calls of different parties commute, so one complete schedule makes all complete; complete schedules for each protocol and for joined scripts. The malicious flag of Gilboa and silent VOLE is passed as the step of the OT extension: negation proved.
* **C145** Multi-threaded VOLE evaluation never deadlocks. Both pools and one link per task as a transition system over the message scripts of C144; invariant: every link can still complete; progress at the first task that is not done, which both pools have started or can start.
* **C146** Byte views stand for the bytes they were made from. Memory as live objects, views as pointer and size, memcmp and strlen with their undefined cases. Equality, constructors and conversion against the relation 'view shows bytes'; counterexamples for null empty views and literals with zero bytes.
* **C147** Large GPU batches give the CPU's answer under every schedule. Transition system of the two threads with program counters, flags, two slots and arbitrary GPU outcomes. Invariant: counts of chunks hashed, published, taken, posted, consumed and converted differ by at most two and fix the contents of the slots; progress and a rank function.
* **C148** GPU arithmetic of SM2 is the arithmetic of the curve. limbs as naturals below 2^64, the carry chains as loops; the value of an element is its residue over 2^256; points as points of Mathlib's Weierstrass curve over ZMod p
* **C149** GPU scalar multiplication is the multiple. loops over limbs, digits and windows; value of the digits by induction, then the group law of C148
* **C150** GPU inversion, square root and return to affine coordinates. shared arrays as functions, a phase as a fold over any order of the threads; footprints of threads are disjoint; prefix products by invariants over the tree
* **C151** GPU batch calls give the results of the CPU group. launches as a function of the count, the element computation and the schedules; composition of C148, C149 and C150; SM3 as any function on 32-byte strings; index arithmetic in int with overflow as an outcome
* **C152** GPU memory of SM2 groups is shared and released correctly. the process as a transition system with the device's live blocks, the buffers of each thread, the registry and the count; an ownership invariant kept by every operation
* **C153** GPU hash of a digest is SM3. the standard as a relation between message and digest for any length; the loops of the code as recursions over bit vectors; invariants of the expansion and the rounds; composition with the field model of C148 and C150

## What is modelled

Every definition of the model cites the lines it models; the table below is extracted from those citations and from the
anchors in `properties.jsonl` (modules are relative to `lean/Verif/`). A file listed here is modelled as far as its
definitions are cited, not necessarily in full; files that only declare what a listed `.cc` file defines are left out.

* `base/block.h`: Matrix/Model
* `base/buffer.h`: Buffer/Model (C69, C70)
* `base/byte_container_view.h`: Utils/ByteView (C146)
* `base/dynamic_bitset.h`: Bitset/Lemmas, Bitset/Model, Bitset/Props, Circuit/Model, Kernel/OtExt (C86, C87)
* `base/exception.h`: Gf/FieldLib
* `base/int128.cc`: Aes/Model, Int128/Model (C25)
* `base/int128.h`: Aes/Model, Int128/Model (C25)
* `crypto/aead/aead.cc`: Crypto/BlockCipher (C103)
* `crypto/aead/all_gcm.cc`: Crypto/BlockCipher (C103)
* `crypto/aead/all_gcm.h`: Crypto/BlockCipher
* `crypto/aead/sm4_mte.cc`: Crypto/BlockCipher (C103)
* `crypto/aead/sm4_mte.h`: Crypto/BlockCipher
* `crypto/aes/aes_intrinsics.h`: Aes/Model (C120)
* `crypto/aes/aes_opt.h`: Aes/Model (C120)
* `crypto/block_cipher/symmetric_crypto.cc`: Crypto/BlockCipher (C102)
* `crypto/block_cipher/symmetric_crypto.h`: Crypto/BlockCipher, Crypto/Prg
* `crypto/ecc/FourQlib/FourQ_factory.cc`: Ecc/CurveNames
* `crypto/ecc/FourQlib/FourQ_group.cc`: Ecc/FourQModel (C135)
* `crypto/ecc/any_ptr.h`: Ecc/OpensslModel, Ecc/PairingModel (C121)
* `crypto/ecc/cuda/cuda_sm2_group.cc`: Ecc/CudaPipe, Ecc/CudaScalar, Ecc/CudaWorkspace, Ecc/CurveNames (C147, C149, C152)
* `crypto/ecc/cuda/kernels/gpu_types.cuh`: Ecc/CudaField, Ecc/CudaPoint, Ecc/CudaScalar
* `crypto/ecc/cuda/kernels/precompute.cuh`: Ecc/CudaWorkspace
* `crypto/ecc/cuda/kernels/sm2_kernels.cu`: Ecc/CudaField, Ecc/CudaHash, Ecc/CudaInv, Ecc/CudaKernel, Ecc/CudaPipe … (C147, C148, C149, C150, C151, C152, C153)
* `crypto/ecc/curve_meta.cc`: Ecc/CurveNames (C123)
* `crypto/ecc/curve_meta.h`: Ecc/CurveNames
* `crypto/ecc/ec_point.cc`: Ecc/Weierstrass
* `crypto/ecc/ec_point.h`: Ecc/OpensslModel, Ecc/Ristretto, Ecc/Weierstrass
* `crypto/ecc/ecc_spi.cc`: Ecc/CurveNames (C123)
* `crypto/ecc/ecc_spi.h`: Ecc/Ristretto, Zkp/Bp/Bytes
* `crypto/ecc/group_sketch.cc`: Ecc/FourQModel, Ecc/MclModel, Ecc/OpensslModel, Ecc/PairingModel, Ecc/Weierstrass (C96, C121, C134)
* `crypto/ecc/hash_to_curve/curve25519.cc`: Ecc/HashToCurve (C104)
* `crypto/ecc/hash_to_curve/hash_to_curve_util.cc`: Ecc/HashToCurve, Ecc/Ristretto (C104)
* `crypto/ecc/hash_to_curve/hash_to_curve_util.h`: Ecc/HashToCurve
* `crypto/ecc/hash_to_curve/p256.cc`: Ecc/HashToCurve (C104)
* `crypto/ecc/hash_to_curve/p384.cc`: Ecc/HashToCurve (C104)
* `crypto/ecc/hash_to_curve/p521.cc`: Ecc/HashToCurve (C104)
* `crypto/ecc/hash_to_curve/ristretto255.cc`: Ecc/Ristretto (C133)
* `crypto/ecc/lib25519/ed25519_group.cc`: Ecc/Ed25519Model (C122)
* `crypto/ecc/lib25519/lib25519_factory.cc`: Ecc/CurveNames, Ecc/Ed25519Model
* `crypto/ecc/lib25519/lib25519_group.cc`: Ecc/Ed25519Model (C122)
* `crypto/ecc/libsodium/ed25519_group.cc`: Ecc/Ed25519Model (C122)
* `crypto/ecc/libsodium/ristretto255_group.cc`: Ecc/Ristretto (C133)
* `crypto/ecc/libsodium/sodium_factory.cc`: Ecc/CurveNames, Ecc/Ed25519Model, Ecc/Ristretto (C123, C133)
* `crypto/ecc/libsodium/sodium_group.cc`: Ecc/Ed25519Model (C122)
* `crypto/ecc/libsodium/x25519_group.cc`: Ecc/Ristretto (C133)
* `crypto/ecc/mcl/mcl_ec_factory.cc`: Ecc/CurveNames, Ecc/MclModel (C123, C134)
* `crypto/ecc/mcl/mcl_ec_group.cc`: Ecc/MclModel, Ecc/PairingModel (C134, C136)
* `crypto/ecc/openssl/openssl_factory.cc`: Ecc/CurveNames (C123)
* `crypto/ecc/openssl/openssl_group.cc`: Ecc/CudaKernel, Ecc/OpensslModel (C121, C151)
* `crypto/ecc/toy/common.h`: Ecc/Montgomery, Ecc/Weierstrass
* `crypto/ecc/toy/factory.cc`: Ecc/CurveNames, Ecc/MontgomeryRun, Ecc/WeierstrassRun (C97, C123)
* `crypto/ecc/toy/montgomery.cc`: Ecc/Montgomery (C97)
* `crypto/ecc/toy/weierstrass.cc`: Ecc/Weierstrass (C96)
* `crypto/envelope/digital_envelope.cc`: Crypto/BlockCipher (C103)
* `crypto/experimental/dpf/dcf.cc`: Fss/Dcf (C46)
* `crypto/experimental/dpf/dcf.h`: Fss/Dcf
* `crypto/experimental/dpf/dpf.cc`: Fss/Dpf (C44, C45)
* `crypto/experimental/dpf/dpf.h`: Fss/Dpf
* `crypto/experimental/dpf/ge2n.h`: Fss/Dpf
* `crypto/experimental/dpf/pprf.cc`: Fss/Pprf (C47)
* `crypto/experimental/dpf/pprf.h`: Fss/Pprf
* `crypto/experimental/sse/sse.cc`: Sse/Expr, Sse/Persist, Sse/Search (C105, C106, C107)
* `crypto/experimental/sse/sse.h`: Sse/Search
* `crypto/experimental/sse/tset.cc`: Sse/TSet (C53)
* `crypto/experimental/sse/tset.h`: Sse/TSet
* `crypto/experimental/sync_drbg/sync_drbg.cc`: Drbg/SyncDrbg (C58, C85)
* `crypto/experimental/sync_drbg/sync_drbg.h`: Drbg/SyncDrbg
* `crypto/experimental/tpre/capsule.cc`: Vss/Tpre (C52)
* `crypto/experimental/tpre/capsule.h`: Vss/Tpre
* `crypto/experimental/tpre/hash.cc`: Vss/Tpre
* `crypto/experimental/tpre/kdf.cc`: Vss/Kdf, Vss/Tpre (C81)
* `crypto/experimental/tpre/keys.cc`: Vss/Secrecy, Vss/Tpre (C52, C127)
* `crypto/experimental/tpre/keys.h`: Vss/Tpre
* `crypto/experimental/tpre/tpre.cc`: Vss/TpreEnd (C126)
* `crypto/experimental/vss/poly.cc`: Vss/Props (C48, C127)
* `crypto/experimental/vss/poly.h`: Vss/Props
* `crypto/experimental/vss/vss.cc`: Vss/Props, Vss/Secrecy (C48, C49, C127)
* `crypto/experimental/vss/vss.h`: Vss/Props
* `crypto/experimental/zkp/bulletproofs/generators.cc`: Zkp/Bp/RangeModel
* `crypto/experimental/zkp/bulletproofs/ipa/inner_product_proof.cc`: Zkp/Bp/Bytes, Zkp/Bp/Model (C91, C116)
* `crypto/experimental/zkp/bulletproofs/ipa/inner_product_proof.h`: Zkp/Bp/Bytes, Zkp/Bp/Model (C116)
* `crypto/experimental/zkp/bulletproofs/r1cs/r1cs_constraint_system.h`: Zkp/Bp/R1csModel
* `crypto/experimental/zkp/bulletproofs/r1cs/r1cs_linear_combination.cc`: Zkp/Bp/R1csModel (C115)
* `crypto/experimental/zkp/bulletproofs/r1cs/r1cs_linear_combination.h`: Zkp/Bp/R1csModel
* `crypto/experimental/zkp/bulletproofs/r1cs/r1cs_proof.cc`: Zkp/Bp/Bytes (C116)
* `crypto/experimental/zkp/bulletproofs/r1cs/r1cs_proof.h`: Zkp/Bp/Bytes, Zkp/Bp/R1csModel
* `crypto/experimental/zkp/bulletproofs/r1cs/r1cs_prover.cc`: Zkp/Bp/R1csModel (C115)
* `crypto/experimental/zkp/bulletproofs/r1cs/r1cs_prover.h`: Zkp/Bp/R1csModel
* `crypto/experimental/zkp/bulletproofs/r1cs/r1cs_verifier.cc`: Zkp/Bp/R1csModel (C115)
* `crypto/experimental/zkp/bulletproofs/r1cs/r1cs_verifier.h`: Zkp/Bp/R1csModel
* `crypto/experimental/zkp/bulletproofs/range_proof/range_proof.cc`: Zkp/Bp/Bytes, Zkp/Bp/RangeModel (C92, C116)
* `crypto/experimental/zkp/bulletproofs/range_proof/range_proof.h`: Zkp/Bp/Bytes, Zkp/Bp/RangeModel
* `crypto/experimental/zkp/bulletproofs/range_proof/range_proof_internal.h`: Zkp/Bp/RangeModel
* `crypto/experimental/zkp/bulletproofs/simple_transcript.cc`: Zkp/Bp/Model, Zkp/Bp/RangeModel, Zkp/Bp/Transcript (C91, C139)
* `crypto/experimental/zkp/bulletproofs/simple_transcript.h`: Zkp/Bp/Transcript
* `crypto/experimental/zkp/bulletproofs/util.cc`: (by its properties) (C91, C92, C115)
* `crypto/experimental/zkp/sumcheck/logup.cc`: Zkp/LogUp (C84)
* `crypto/experimental/zkp/sumcheck/matmul_check.cc`: Zkp/MatMul (C83)
* `crypto/experimental/zkp/sumcheck/polynomial.cc`: Zkp/Checks, Zkp/Sumcheck (C82)
* `crypto/experimental/zkp/sumcheck/polynomial.h`: Zkp/Sumcheck
* `crypto/experimental/zkp/sumcheck/sumcheck.cc`: Zkp/Checks, Zkp/Sumcheck (C50, C51)
* `crypto/experimental/zkp/sumcheck/sumcheck.h`: Zkp/Sumcheck
* `crypto/hash/blake3.cc`: Crypto/HashObj (C128)
* `crypto/hash/blake3.h`: Crypto/HashObj
* `crypto/hash/hash_interface.h`: Crypto/HashObj, Crypto/Pkey
* `crypto/hash/hash_utils.cc`: Crypto/HashObj (C128)
* `crypto/hash/hash_utils.h`: Crypto/HashObj
* `crypto/hash/ssl_hash.cc`: Crypto/HashObj, Ecc/HashToCurve (C128)
* `crypto/hash/ssl_hash.h`: Crypto/HashObj
* `crypto/hash/ssl_hash_xof.cc`: Crypto/HashObj (C128)
* `crypto/hash/ssl_hash_xof.h`: Crypto/HashObj
* `crypto/hmac/hmac.cc`: Crypto/HashObj (C128)
* `crypto/hmac/hmac.h`: Crypto/HashObj
* `crypto/key_utils.cc`: Crypto/Pkey (C131)
* `crypto/openssl_wrappers.h`: Crypto/HashObj
* `crypto/oprf/oprf.h`: Oprf/Model (C93)
* `crypto/oprf/oprf_ctx.cc`: Oprf/Model (C95)
* `crypto/oprf/oprf_ctx.h`: Oprf/Model (C95)
* `crypto/oprf/voprf.h`: Oprf/Model (C94)
* `crypto/ossl_provider/rand_impl.h`: Drbg/Gm (C111)
* `crypto/pairing/factory/mcl_bls12_381.cc`: Ecc/PairingModel (C136)
* `crypto/pairing/factory/mcl_factory.cc`: (by its properties) (C136)
* `crypto/pke/rsa_enc.cc`: Crypto/Pkey (C131)
* `crypto/pke/sm2_enc.cc`: Crypto/Pkey (C131)
* `crypto/pqc/kem.cc`: Crypto/Pqc (C132)
* `crypto/pqc/sig.cc`: Crypto/Pqc (C132)
* `crypto/rand/drbg/native_factory.cc`: Drbg/Gm (C111)
* `crypto/rand/drbg/native_factory.h`: Drbg/Gm
* `crypto/rand/entropy_source/rdseed_factory.cc`: Drbg/Gm (C111)
* `crypto/rand/entropy_source/urandom_factory.cc`: Drbg/Gm
* `crypto/rand/rand.cc`: Drbg/Rand (C112)
* `crypto/rand/rand.h`: Drbg/Rand (C112)
* `crypto/sign/rsa_signing.cc`: Crypto/Pkey (C131)
* `crypto/sign/sm2_signing.cc`: Crypto/Pkey (C131)
* `crypto/tools/common.h`: Kernel/ScriptsModel (C144)
* `crypto/tools/crhash.cc`: Crypto/CrHash (C101)
* `crypto/tools/crhash.h`: Crypto/CrHash, Kernel/Softspoken
* `crypto/tools/prg.cc`: Crypto/Prg, Crypto/PrgProps (C56)
* `crypto/tools/prg.h`: Crypto/Prg (C54, C55, C57, C75, C76)
* `crypto/tools/ro.h`: Kernel/BaseOt (C114)
* `crypto/tools/rp.cc`: Crypto/BlockCipher (C102)
* `crypto/tools/rp.h`: Crypto/BlockCipher, Kernel/Softspoken
* `io/circuit/bristol_fashion.cc`: Circuit/Model (C31, C71)
* `io/circuit/bristol_fashion.h`: Circuit/Model
* `io/kv/kvstore.h`: IO/Kv
* `io/kv/leveldb_kvstore.cc`: IO/Kv
* `io/kv/memory_kvstore.cc`: IO/Kv (C32)
* `io/kv/memory_kvstore.h`: IO/Kv
* `io/msgpack/buffer.h`: Msgpack/Model (C27)
* `io/msgpack/spec_traits.cc`: Msgpack/Model (C27)
* `io/rw/csv_reader.cc`: IO/CsvModel (C33, C34)
* `io/rw/csv_reader.h`: IO/CsvModel
* `io/rw/csv_writer.cc`: IO/CsvModel (C33)
* `io/rw/float.h`: IO/CsvModel, IO/CsvRoundTrip
* `io/rw/mmapped_file.cc`: IO/CsvModel
* `io/rw/schema.h`: IO/CsvModel
* `io/stream/file_io.cc`: Circuit/Model, IO/CsvModel (C71)
* `io/stream/mem_io.cc`: IO/CsvModel
* `kernel/algorithms/base_ot.cc`: Kernel/BaseOt (C114)
* `kernel/algorithms/base_vole.h`: Kernel/ScriptsModel, Kernel/SilentVole (C79, C144)
* `kernel/algorithms/ferret_ote.cc`: Kernel/Ferret, Kernel/ScriptsModel (C99, C144)
* `kernel/algorithms/ferret_ote.h`: Kernel/Ferret
* `kernel/algorithms/ferret_ote_rn.h`: Kernel/Ferret, Kernel/ScriptsModel (C99)
* `kernel/algorithms/gywz_ote.cc`: Kernel/Ferret, Kernel/Ggm, Kernel/ScriptsModel (C40)
* `kernel/algorithms/iknp_ote.cc`: Kernel/OtExt, Kernel/ScriptsModel (C37, C144)
* `kernel/algorithms/kkrt_ote.cc`: Kernel/Kkrt, Kernel/ScriptsModel (C41, C144)
* `kernel/algorithms/kkrt_ote.h`: Kernel/Kkrt
* `kernel/algorithms/kos_ote.cc`: Crypto/PrgProps, Kernel/OtExt, Kernel/ScriptsModel (C38, C74, C75, C144)
* `kernel/algorithms/mp_vole.h`: Kernel/MpVole, Kernel/ScriptsModel (C42, C144)
* `kernel/algorithms/mpfss.cc`: Kernel/Mpfss, Kernel/ScriptsModel (C42, C78)
* `kernel/algorithms/mpfss.h`: Kernel/Mpfss, Kernel/ScriptsModel (C61)
* `kernel/algorithms/portable_ot_interface.cc`: Kernel/BaseOt, Kernel/ScriptsModel (C114)
* `kernel/algorithms/sgrr_ote.cc`: Kernel/Ggm, Kernel/ScriptsModel (C39, C77)
* `kernel/algorithms/sgrr_ote.h`: Kernel/ScriptsModel
* `kernel/algorithms/silent_vole.cc`: Kernel/NoiseWeight, Kernel/ScriptsModel, Kernel/SilentVole, Kernel/SilentVoleSilver (C80, C142, C144)
* `kernel/algorithms/silent_vole.h`: Kernel/ScriptsModel
* `kernel/algorithms/softspoken_ote.cc`: Kernel/ScriptsModel, Kernel/Softspoken (C98, C144)
* `kernel/algorithms/softspoken_ote.h`: Kernel/OtKernel, Kernel/ScriptsModel, Kernel/Softspoken
* `kernel/algorithms/x86_asm_ot_interface.cc`: Kernel/BaseOt, Kernel/ScriptsModel (C114)
* `kernel/code/ea_code.h`: Kernel/LinearCode
* `kernel/code/linear_code.h`: Kernel/LinearCode (C43)
* `kernel/code/silver_code.cc`: Kernel/SilverModel (C117)
* `kernel/code/silver_code.h`: Kernel/SilverModel (C117)
* `kernel/ot_kernel.cc`: Kernel/OtKernel, Kernel/ScriptsModel (C100)
* `kernel/ot_kernel.h`: Kernel/OtKernel
* `kernel/svole_kernel.cc`: Kernel/ScriptsPool, Kernel/ScriptsStream, Kernel/SvoleKernel (C118, C145)
* `kernel/svole_kernel.h`: Kernel/SvoleKernel (C118)
* `kernel/type/ot_store.cc`: Kernel/Ferret, Kernel/OtMock, Kernel/OtStore (C35, C36, C72, C119)
* `kernel/type/ot_store.h`: Kernel/OtMock
* `kernel/type/ot_store_utils.cc`: Kernel/OtMock (C119)
* `kernel/type/ot_store_utils.h`: Kernel/OtMock
* `kernel/type/slice_base.cc`: Kernel/Ferret, Kernel/OtStore (C35, C72)
* `kernel/type/slice_base.h`: Kernel/Ferret, Kernel/OtStore
* `link/algorithm/allgather.cc`: Link/CollectiveModel (C19, C20)
* `link/algorithm/barrier.cc`: Link/CollectiveModel (C17, C20)
* `link/algorithm/broadcast.cc`: Link/CollectiveModel (C18, C20)
* `link/algorithm/gather.cc`: Link/CollectiveModel (C19)
* `link/algorithm/scatter.cc`: Link/CollectiveModel (C19)
* `link/context.cc`: Kernel/ScriptsModel, Link/CollectiveModel, Link/ContextModel, Link/ContextProps (C14, C15, C16, C63, C64, C65)
* `link/context.h`: Kernel/ScriptsModel, Link/ContextModel, Link/DescModel (C137, C138)
* `link/factory_brpc.cc`: Link/Blackbox, Link/Brpc, Link/DescModel (C130, C137)
* `link/factory_brpc_blackbox.cc`: Link/Blackbox, Link/BlackboxEnv, Link/DescModel (C113, C137)
* `link/factory_mem.cc`: Link/ChannelMem, Link/DescModel (C138)
* `link/retry_options.h`: Channel/SenderModel (C11, C12)
* `link/ssl_options.h`: Link/DescModel (C137)
* `link/transport/blackbox_interconnect/blackbox_dummy_service_impl.cc`: Link/Blackbox (C113)
* `link/transport/blackbox_interconnect/blackbox_dummy_service_impl.h`: Link/Blackbox
* `link/transport/blackbox_interconnect/blackbox_service_errorcode.h`: Link/Blackbox
* `link/transport/brpc_blackbox_link.cc`: Link/Blackbox, Link/DescModel (C113, C137)
* `link/transport/brpc_blackbox_link.h`: Link/Blackbox, Link/DescModel
* `link/transport/brpc_link.cc`: Link/Brpc, Link/DescModel (C130, C137)
* `link/transport/brpc_link.h`: Link/Brpc
* `link/transport/channel.cc`: Channel/CloseModel, Channel/Model, Channel/SenderModel, Link/Brpc (C02, C03, C04, C05, C06, C07, C08, C09)
* `link/transport/channel.h`: Channel/Model, Channel/Spec, Link/Blackbox, Link/DescModel, SegmentTree/Model
* `link/transport/channel_mem.cc`: Link/ChannelMem, Link/CollectiveModel (C62)
* `link/transport/channel_mem.h`: Link/ChannelMem
* `link/transport/interconnection_link.cc`: Link/Blackbox, Link/Brpc (C113, C130)
* `link/transport/interconnection_link.h`: Link/Brpc
* `math/bigint/bigint.cc`: BigInt/Front (C129)
* `math/bigint/bigint.h`: BigInt/Front (C129)
* `math/bigint/bigint_spi.cc`: BigInt/Front (C129)
* `math/bigint/bigint_var.h`: BigInt/Front
* `math/bigint/gmp/gmp_int.cc`: BigInt/Backends, BigInt/GmpMont (C109, C110)
* `math/bigint/gmp/gmp_int.h`: BigInt/Backends (C110)
* `math/bigint/gmp/mont_space.cc`: BigInt/GmpMont, BigInt/PowTable (C109)
* `math/bigint/gmp/mont_space.h`: BigInt/GmpMont
* `math/bigint/mont_space.cc`: BigInt/PowTable (C109)
* `math/bigint/mont_space.h`: BigInt/PowTable
* `math/bigint/openssl/bignum.cc`: BigInt/Backends (C110)
* `math/bigint/openssl/bignum.h`: BigInt/Backends (C110)
* `math/bigint/openssl/mont_space.cc`: BigInt/LibMont, BigInt/PowTable (C109)
* `math/bigint/tommath/mont_space.cc`: BigInt/LibMont, BigInt/PowTable (C109)
* `math/gadget.h`: Kernel/ScriptsModel, Kernel/SilentVole, Math/Gadget (C60)
* `math/galois_field/factory/gf_scalar.h`: Gf/ItemModel (C124)
* `math/galois_field/factory/intel_factory.cc`: Gf/FieldLib (C125)
* `math/galois_field/factory/intel_factory.h`: Gf/FieldLib (C125)
* `math/galois_field/factory/mcl_factory.cc`: (by its properties) (C125, C136)
* `math/galois_field/factory/mcl_factory.h`: Gf/FieldLib
* `math/galois_field/factory/mpint_factory.cc`: Gf/FieldLib (C125)
* `math/galois_field/gf.h`: Gf/FieldLib
* `math/galois_field/gf_intrinsic.cc`: Gf/FieldLib, Gf/Model (C59)
* `math/galois_field/gf_intrinsic.h`: Gf/Model, Kernel/SilentVole (C73, C74)
* `math/mpint/mp_int.cc`: Ecc/HashToCurve, Ecc/OpensslModel, Ecc/Ristretto, MpInt/Model, MpInt/Prime … (C89, C90)
* `math/mpint/mp_int.h`: Ecc/Ristretto, Ecc/Weierstrass, MpInt/Model (C88, C96)
* `math/mpint/tommath_ext_features.cc`: Ecc/MclModel, Ecc/Montgomery, MpInt/Model, MpInt/Prime (C88, C90)
* `math/mpint/tommath_ext_types.cc`: MpInt/Model (C88)
* `secparam.cc`: Utils/SecParamModel
* `secparam.h`: Kernel/Ferret, Kernel/FerretNoise, Kernel/NoiseWeight, Utils/SecParamModel (C141, C142)
* `utils/circuit_executor.cc`: Circuit/Model (C29)
* `utils/circuit_executor.h`: Circuit/Model (C29, C30)
* `utils/compile_time_utils.h`: Utils/SecParamModel (C141)
* `utils/cuckoo_index.cc`: Cuckoo/Model (C21, C66)
* `utils/cuckoo_index.h`: Cuckoo/Model
* `utils/elapsed_timer.cc`: Utils/Timer (C143)
* `utils/elapsed_timer.h`: Utils/Timer
* `utils/hamming.h`: Utils/BitsModel (C140)
* `utils/hash_combine.h`: Link/DescModel (C138)
* `utils/matrix_utils.cc`: Matrix/Avx, Matrix/Model (C28)
* `utils/matrix_utils.h`: Matrix/Model
* `utils/parallel.cc`: Parallel/Model (C22, C67)
* `utils/parallel.h`: Parallel/Model (C22, C23, C68)
* `utils/platform_utils.cc`: Utils/BitsModel (C140)
* `utils/segment_tree.h`: SegmentTree/Model (C01, C02)
* `utils/serializer.h`: Msgpack/Model (C26)
* `utils/serializer_adapter.h`: Msgpack/Model (C26)
* `utils/spi/argument/arg_k.h`: Utils/Spi
* `utils/spi/argument/arg_kv.cc`: Utils/Spi
* `utils/spi/argument/arg_kv.h`: Utils/Spi
* `utils/spi/argument/arg_set.cc`: Utils/Spi
* `utils/spi/argument/arg_set.h`: Utils/Spi (C108)
* `utils/spi/argument/util.cc`: Utils/Spi (C108)
* `utils/spi/item.cc`: Gf/ItemModel
* `utils/spi/item.h`: Gf/ItemModel (C124)
* `utils/spi/sketch/scalar_call.h`: Gf/ItemModel (C124)
* `utils/spi/sketch/scalar_define.h`: Gf/ItemModel
* `utils/spi/sketch/scalar_tools.h`: Gf/FieldLib, Msgpack/Model
* `utils/spi/spi_factory.h`: Utils/Spi (C108)
* `utils/thread_pool.cc`: Kernel/ScriptsPool, ThreadPool/Model (C24, C145)
* `utils/thread_pool.h`: ThreadPool/Model (C24)

## What is not modelled

Test, benchmark and demo files are left out. Not modelled:

* platform, timing and compile-time helpers, declarations: `base/aligned_vector.h`, `base/buffer.cc`, `base/exception.cc`, `utils/platform_utils.h`, `utils/scope_guard.h`, `utils/serialize.h`, `utils/spi/argument/argument.h`, `utils/spi/argument/util.h`, `utils/spi/type_traits.h`.
* calls into OpenSSL, liboqs and BLAKE3; hashes, ciphers and signatures are arbitrary functions in the theorems: `crypto/aead/aead.h`, `crypto/envelope/digital_envelope.h`, `crypto/hmac/hmac_sha256.h`, `crypto/hmac/hmac_sm3.h`, `crypto/key_utils.h`, `crypto/ossl_provider/provider.cc`, `crypto/ossl_provider/version.h`, `crypto/pke/pke_interface.h`, `crypto/pke/rsa_enc.h`, `crypto/pke/sm2_enc.h`, `crypto/pqc/kem.h`, `crypto/pqc/sig.h`, `crypto/sign/rsa_signing.h`, `crypto/sign/signing.h`, `crypto/sign/sm2_signing.h`.
* wrappers of external curve libraries (assembly, CUDA runtime, libsodium, mcl, OpenSSL); the curve arithmetic of the toy library and of the CUDA kernels is modelled, other curves appear as arbitrary groups: `crypto/ecc/FourQlib/FourQ_group.h`, `crypto/ecc/cuda/cuda_sm2_factory.cc`, `crypto/ecc/cuda/cuda_sm2_group.h`, `crypto/ecc/cuda/kernels/field_ops.cuh`, `crypto/ecc/cuda/kernels/point_ops.cuh`, `crypto/ecc/cuda/kernels/sm2_kernels.cuh`, `crypto/ecc/lib25519/ed25519_group.h`, `crypto/ecc/lib25519/lib25519_group.h`, `crypto/ecc/lib25519/lib25519_private.h`, `crypto/ecc/libsodium/ed25519_group.h`, `crypto/ecc/libsodium/ristretto255_group.h`, `crypto/ecc/libsodium/sodium_group.h`, `crypto/ecc/libsodium/sodium_private.h`, `crypto/ecc/libsodium/x25519_group.h`, `crypto/ecc/mcl/mcl_ec_group.h`, `crypto/ecc/mcl/mcl_util.cc`, `crypto/ecc/mcl/mcl_util.h`, `crypto/ecc/openssl/openssl_group.h`.
* interface declarations and tables of curve parameters: `crypto/ecc/group_sketch.h`, `crypto/ecc/hash_to_curve/curve25519.h`, `crypto/ecc/hash_to_curve/hash_to_curve.h`, `crypto/ecc/hash_to_curve/p256.h`, `crypto/ecc/hash_to_curve/p384.h`, `crypto/ecc/hash_to_curve/p521.h`, `crypto/ecc/hash_to_curve/ristretto255.h`, `crypto/ecc/toy/common.cc`, `crypto/ecc/toy/montgomery.h`, `crypto/ecc/toy/weierstrass.h`.
* declarations and small wrappers: `crypto/experimental/tpre/hash.h`, `crypto/experimental/tpre/kdf.h`, `crypto/experimental/tpre/tpre.h`, `crypto/experimental/zkp/sumcheck/logup.h`, `crypto/experimental/zkp/sumcheck/matmul_check.h`.
* declarations, error types and configuration; transcripts are arbitrary functions: `crypto/experimental/zkp/bulletproofs/bp_config.h`, `crypto/experimental/zkp/bulletproofs/errors.cc`, `crypto/experimental/zkp/bulletproofs/errors.h`, `crypto/experimental/zkp/bulletproofs/generators.h`, `crypto/experimental/zkp/bulletproofs/ipa/ipa_config.h`, `crypto/experimental/zkp/bulletproofs/r1cs/r1cs_config.h`, `crypto/experimental/zkp/bulletproofs/r1cs/r1cs_metrics.h`, `crypto/experimental/zkp/bulletproofs/range_proof/range_proof_config.h`, `crypto/experimental/zkp/bulletproofs/util.h`.
* wrappers of the mcl pairing library: `crypto/pairing/factory/mcl_bls12_381.h`, `crypto/pairing/factory/mcl_pairing_group.cc`, `crypto/pairing/factory/mcl_pairing_group.h`, `crypto/pairing/factory/mcl_pairing_header.h`, `crypto/pairing/factory/pairing_spi.cc`, `crypto/pairing/factory/pairing_spi.h`, `crypto/pairing/pairing.h`.
* declarations, and the calls into OpenSSL's generators: `crypto/rand/drbg/drbg.h`, `crypto/rand/drbg/openssl_factory.cc`, `crypto/rand/drbg/openssl_factory.h`, `crypto/rand/entropy_source/entropy_source.h`, `crypto/rand/entropy_source/rdseed_factory.h`, `crypto/rand/entropy_source/urandom_factory.h`.
* declarations and wrappers of the C++ streams: `io/kv/leveldb_kvstore.h`, `io/msgpack/spec_traits.h`, `io/rw/csv_writer.h`, `io/rw/mmapped_file.h`, `io/rw/reader.h`, `io/rw/writer.h`, `io/stream/file_io.h`, `io/stream/interface.h`, `io/stream/mem_io.h`.
* declarations, wrappers of external OT code, mock stores, code tables: `kernel/algorithms/base_ot.h`, `kernel/algorithms/base_ot_interface.h`, `kernel/algorithms/ferret_ote_un.h`, `kernel/algorithms/gywz_ote.h`, `kernel/algorithms/iknp_ote.h`, `kernel/algorithms/kos_ote.h`, `kernel/algorithms/portable_ot_interface.h`, `kernel/algorithms/x86_asm_ot_interface.h`, `kernel/code/code_interface.h`, `kernel/kernel.h`.
* transport over brpc and HTTP, tracing and declarations: `link/algorithm/allgather.h`, `link/algorithm/barrier.h`, `link/algorithm/broadcast.h`, `link/algorithm/gather.h`, `link/algorithm/scatter.h`, `link/factory.h`, `link/link.h`, `link/trace.cc`, `link/trace.h`, `link/transport/blackbox_interconnect/mock_transport.h`.
* wrappers of GMP, libtommath, OpenSSL, mcl and HEXL not covered by the contracts in BigInt/, and declarations: `math/bigint/bigint_lib.h`, `math/bigint/bigint_spi.h`, `math/bigint/gmp/gmp_lib.cc`, `math/bigint/gmp/gmp_lib.h`, `math/bigint/gmp/gmp_loader.cc`, `math/bigint/gmp/gmp_loader.h`, `math/bigint/openssl/mont_space.h`, `math/bigint/openssl/openssl_lib.cc`, `math/bigint/openssl/openssl_lib.h`, `math/bigint/tommath/mont_space.h`, `math/bigint/tommath/tommath_lib.cc`, `math/bigint/tommath/tommath_lib.h`, `math/common.h`, `math/galois_field/factory/gf_spi.cc`, `math/galois_field/factory/gf_spi.h`, `math/galois_field/factory/gf_vector.h`, `math/galois_field/factory/mpint_factory.h`, `math/mpint/mp_int_enforce.h`, `math/mpint/tommath_ext_features.h`, `math/mpint/tommath_ext_types.h`.

## Findings: where the code violates a property

Each line is a theorem of the model; its proof contains the witness. See the doc comment above the theorem for the lines.

* `Yacl.SegmentTree.C01_max_id_violated`: The bound on ids is needed: the largest `size_t` id is inserted but not found afterwards (`item + 1` wraps to 0).
* `Yacl.Channel.C07_inconsistent_total_out_of_bounds_violated`: **C07, violated.** Two chunk requests with inconsistent total lengths make the receiver write outside the reassembly buffer: the second request is checked against its own total (100), not against the buffer allocated for the first (4).
* `Yacl.Channel.C07_offset_wraps_out_of_bounds_violated`: **C07, violated (second way).** The bounds check adds two `size_t`s: an offset near `2^64` wraps around, passes the check and is then used as a write offset.
* `Yacl.Channel.Sender.C12_retry_increment_violated`: **C12, violated.** A descriptor with retry interval 7 and interval increment 100 yields increment 7, not 100.
* `Yacl.Channel.Sender.C13_sync_send_hides_failure_violated`: **C13, violated.** With `exit_if_async_error = false`, `Send` returns normally although the transport refused the message.
* `Yacl.Channel.Sender.C13_chunk_failure_lost_violated`: **C13, violated (chunked messages).** Even before that, the failure of one chunk push is lost when every push has finished by the time the caller looks: two chunks, window 2, the first fails, the caller returns normally.
* `Yacl.Link.C14_p2p_counter_violated`: **C14 is violated** for long histories: 2^31 messages in one direction reach undefined behaviour (signed overflow of the `int` counter).
* `Yacl.Link.C15_spawn_violated`: **C15 is violated** in general: `Spawn()` followed by `Spawn("0")` gives two children with the same id (so both use the same message ids on the same channels); so does `SubWorld("0", …)`.
* `Yacl.Link.C15_grandchild_violated`: **C15 is violated** across generations as well: the grandchild `Spawn("a")->Spawn("b")` and the child `Spawn("a-b")`.
* `Yacl.Link.C16_large_stride_violated`: **C16 is violated** for strides beyond the ring: with 3 parties, stride 4, `PrevRank` of party 0 is 0 instead of 2, and `NextRank` does not undo it.
* `Yacl.Parallel.C22_int64_wrap_violated`: Finding (**C22 violated** at the end of the `int64_t` range): the end of the last chunk wraps around, so its body gets a range that does not contain the last index.
* `Yacl.Parallel.C23_thread_count_race_violated`: Finding: `parallel_reduce` reads the number of threads twice. If another thread changes it in between (2 instead of 4), uninitialised partial results are combined; with more threads the second time, results are written out of bounds.
* `Yacl.Matrix.C28_alignment_violated`: **C28 violated** The type of the argument, `std::array<uint128_t, 128>*`, only guarantees an address that is a multiple of 16: with such an address the build with `YACL_ENABLE_BMI2` aborts (or faults), the other builds work.
* `Yacl.Circuit.C29_bytes_violated`: **C29** fails for `Finalize()` when the outputs do not fill whole bytes: this circuit negates its last input bit; its only output wire holds 0, but the byte returned carries seven input wires too.
* `Yacl.Circuit.C29_span_violated`: **C29** fails for `Finalize(Span)` when the output widths are not a palindrome: here output 0 is wire 3 and output 1 is wires 4, 5, (values 1 and 0, 0), yet the first output returned is 1, 0 and the second 0.
* `Yacl.Circuit.C30_span_violated`: A concrete second use: the circuit is the identity, the first use is with 5, the second with 7 and returns 5.
* `Yacl.Kv.C32_memory_overwrite_violated`: **C32 (memory store) is violated on overwrite**: writing 2 under a key that holds 1 leaves 1.
* `Yacl.Csv.C33_delimiter_in_value_violated`: Without the delimiter hypothesis the round trip fails: the value `a,b` of a one-column table is read back as a malformed row.
* `Yacl.Csv.C33_column_reader_empty_violated`: A column reader cannot read a file that has a header and no rows: opening succeeds, the first `Next` throws (mapping the empty column file fails).
* `Yacl.Csv.C34_after_bad_row_violated`: **C34 is violated after a malformed row**: header `a`, rows `x,y` (one field too many), `c`. The first read throws but has consumed the bad line without counting it; the next read returns row 1 as if it were row 0 and records a wrong file position, after which `Seek(1)` "succeeds" and the read that follows finds no row although …
* `Yacl.Csv.C34_count_lines_empty_violated`: A file with a header and no rows can be opened, but not with `row_reader_count_lines`: `Init` then throws on its own `Seek(0)`.
* `Yacl.OtStore.C35_slice_of_slice_violated`: The code does not keep C35 for `Slice` on a slice: its arguments count from the start of the whole store, so the slice `[10, 20)` can be cut to the slice `[0, 5)` outside it.
* `Yacl.OtStore.C35_resetSlice_violated`: Nor for `ResetSlice` on a slice: it widens the slice `[10, 20)` to `[0, 20)`.
* `Yacl.OtStore.C35_huge_request_violated`: Nor for absurdly large requests to a sender in normal mode: the doubling wraps, and a request for 2^63 + 1 OTs from a store of two returns a slice of one.
* `Yacl.OtStore.C36_copy_violated`: The code does not keep C36: once `NextSlice` has handed out part of a store or slice, `CopyCotBlkBuf` on it starts at the first block not handed out. On a slice it then returns blocks of its neighbour; on the store itself it reads past the end of the buffer.
* `Yacl.MpVole.C42_check_violated`: The check rejects honest parties when there is one block and its point is 0 or 1. For point 0 it always throws. For point 1 the payload misses `pre_a[0]`, and for suitable values the hashes compared belong to different words (any collision-free hash tells them apart).
* `Yacl.MpVole.C42_resetup_violated`: The receiver cannot be set up again: `OneTimeSetup` does not clear `is_finish_`, so every later `Recv` throws, while the peer's `Send` goes through.
* `Yacl.Code.C43_large_dimension_violated`: The code does not keep C43 for a dimension of `2^31` or more: the comparison is signed, so an index with the top bit set is not reduced and lies outside the message.
* `Yacl.Dpf.C45_wide_violated`: From 32 levels on the code has undefined behaviour: the instantiation with 32-bit inputs never yields a result.
* `Yacl.Pprf.C47_reuse_violated`: The code does not keep C47 when the key object has been used before: `insert` keeps the old seeds, while the point is replaced.
* `Yacl.Sumcheck.C51_one_violated`: is violated by the one check when the table is at least as long as the modulus: with modulus 3, four ones and the draw `alpha = 1`, `ComputeAlphaSum` returns 4 without reducing it and the honest run is rejected.
* `Yacl.TSet.C53_violated`: is violated for keywords with more than 100 entries: the last one is not returned.
* `Yacl.Prg.C54_bool_violated`: fails for `Prg<bool>`: whatever the seed and the cipher, the first `7 * BATCH_SIZE` values (112 with the default batch size) are `false`.
* `Yacl.Prg.C55_violated`: fails: after one value has been drawn, `SetSeed` with the very same seed does not restart the stream (the cached values of the old stream are returned first).
* `Yacl.Prg.C56_ctr_violated`: fails in CTR mode, which `PrgAesCtr` uses: the counter is placed in the initial vector in little-endian order but incremented in big-endian order, so resuming from the returned counter does not continue the stream.
* `Yacl.Prg.C56_wrap_violated`: The corner excluded above: when the counter crosses 2^64 the padded last block uses a wrapped counter, so a shorter fill is not a prefix.
* `Yacl.Prg.C57_wide_violated`: fails for `uint64_t` and `uint128_t`: the result can be `p` itself, which is not a canonical residue; and it is not the residue of the byte string (the top bits of the first word are dropped).
* `Yacl.SyncDrbg.C58_violated`: is violated: when the generator asks for a reseed, `Fill` reseeds, does not retry that batch and returns 1; the caller's buffer keeps its old bytes.
* `Yacl.Mpfss.C61_setIndexes_violated`: The code does not keep C61 for `SetIndexes`: on fresh parameters it writes outside the (empty) vector, and after `GenIndexes` the last index is the random one, not the given one.
* `Yacl.ChannelMem.C62_violated`: without the proviso is false: a second message sent under a key before the first is read is dropped, and the second `Recv` never returns.
* `Yacl.Buf.C69_negative_resize_violated`: **C69** fails for a negative argument: `resize(-1)` is accepted and `size()` is then negative.
* `Yacl.Buf.C70_deleter_called_with_null_violated`: **C70**, finding: after `release()` of an adopted block, the next `reset()` (or the destructor) calls the adopted deleter with a null pointer.
* `Yacl.Circuit.C71_truncated_violated`: **C71** fails on truncated files: the file announces 3 gates but is cut right after the first one, and instead of an error the reader returns a circuit in which that gate occurs three times.
* `Yacl.Circuit.C71_short_line_violated`: A gate line of one word makes the reader index past the words of the line.
* `Yacl.Circuit.C71_count_wraps_violated`: A wire count that wraps 32 bits passes the length check and makes the reader index past the words of the line.
* `Yacl.OtStore.C72_steal_violated`: The code does not keep C72: `StealBlkBuf` never returns the blocks. It always throws, whatever the store holds, because the counters it clears fail the consistency check that follows; the blocks, already moved out, are lost.
* `Yacl.Gf.C73_coef_violated`: The code does not keep C73 when the last index is 0 or 1. For the single index 0, `Log2Ceil(0)` throws. When the last index is 1, `Log2Ceil(1) = 0` squares are prepared, the weight of index 1 (`seed^2`) is read from an entry that was never filled, and the returned weight is 0 for every seed.
* `Yacl.Prg.C75_violated`: fails: the check message of an honest KOS receiver depends only on its choices and the challenge, so it is not masked: a sender picking the challenge reads a 64-bit word of the receiver's choices from it.
* `Yacl.SilentVole.C80_dirty_violated`: The code does not keep C80 for buffers holding other data: the codeword is added to it.
* `Yacl.MPInt.Arith.C89_div_violated`: The quotient is not rounded down: `(-1) / 2` is `0`, not `-1`, and the identity between quotient and remainder fails.
* `Yacl.MPInt.Arith.C89_mod_digit_violated`: ... and not for negative ones: `MPInt(-1).Mod(5)` is 1.
* `Yacl.Bp.C91_zero_violated`: , the excluded case of completeness: the proof `Create` makes for zero vectors makes `Verify` throw.
* `Yacl.Oprf.C93_refresh_violated`: refreshing the blind of a client that has finalised an evaluation makes it return something else than the pseudo random function, for every key, input, and pair of different blinds, when the hash and the serialisation are injective: the cached inverse belongs to the old blind.
* `Yacl.Oprf.C95_roundtrip_violated`: reading a configuration back from its context string fails, for every mode and suite (and indeed no string at all is accepted): the name of each suite contains the separator.
* `Yacl.Ecc.C96_negate_violated`: the negation of a point of order two is not a reduced point: its second coordinate is the modulus itself, and the result compares unequal to the point it equals.
* `Yacl.Ecc.Mont.C97_one_violated`: multiplication by one does not return the generator (the scalar is clamped), so `Mul` is not the scalar multiplication that `EcGroup` promises.
* `Yacl.Ecc.Mont.C97_negate_violated`: the negation of the generator is not the generator, although opposite points have the same x-coordinate.
* `Yacl.Softspoken.C98_compact_violated`: fails to hide anything in compact mode: the messages of an honest receiver determine all its choices. One function of what goes over the wire (the setup message and the masked choices), of the public functions and the public counter recovers the receiver's choices, for every base OT, seeds, number of OTs and choices. The cause: …
* `Yacl.Ferret.C99_cheetah_violated`: The cheetah variant reads its noise from the COTs that also are the secret of the code. Without the check and with a last tree that is not a single leaf, the choices of the receiver do not depend on the base COTs from `k` on, which the variant sets aside for the noise: if two runs start from base COTs that agree in the first …
* `Yacl.OtKernel.C100_reuse_violated`: The Ferret kernel uses the same base COTs in every call. So two calls of one kernel share the secret of the code and the noise, and the noise cancels: the sum of the receiver's choices in the two calls is, at every position, a known sum (ten positions of each public matrix) of the same `k` secret bits.
* `Yacl.OtKernel.C100_leak_violated`: The choices of the default kernel are not hidden: what the receiver sends during `init` (and public functions) determines its choices in every later call. One attack works for every base OT, seed, choice and call of up to `n` OTs. It composes the leak of compact SoftSpoken with the structure of Ferret.
* `Yacl.CrHash.C101_single_violated`: The single-block version is wrong: it ignores half of the block. Blocks with the same low half have the same hash, whatever the permutation.
* `Yacl.CrHash.C101_mismatch_violated`: With an injective hash core the two versions agree on a block exactly when its two halves are equal.
* `Yacl.CrHash.C101_truncated_violated`: From `2^32` blocks on the returned vector is shorter than the input.
* `Yacl.BlockCipher.C102_const_violated`: in CBC and CTR: though `Encrypt` is a const method, calls on one object depend on each other. Encrypting the same block twice gives two results: always in CTR, and in CBC unless the first result is the vector itself.
* `Yacl.BlockCipher.C102_rp_violated`: The default random permutation uses CBC. There the many-block version is not the permutation of each block: already for two blocks the second result differs, unless the first one happens to be the vector.
* `Yacl.BlockCipher.C103_empty_violated`: The empty message is encrypted, but its ciphertext is refused.
* `Yacl.BlockCipher.C103_aad_violated`: SM4-MTE through the AEAD interface does not authenticate the additional data or look at the MAC it is given: any other values are accepted.
* `Yacl.BlockCipher.C103_macsize_violated`: `GetMacSize` reports 32 bytes for AES-256-GCM, whose tag has 16; the other sizes are right.
* `Yacl.Ecc.H2C.C104_scalar_violated`: , violated: `HashToScalar` of P-384 and of P-521 throws for every message and tag, because the order is missing from their tables of constants.
* `Yacl.Ecc.H2C.C104_25519_violated`: , violated for Curve25519: when the two field elements coincide (here with a hash whose digests are all equal) `HashToCurve` throws.
* `Yacl.Sse.C105_iv_violated`: , violated: two records with the same ciphertext and different IVs. Search decrypts both with the IV of the first, and returns an identifier that no record has.
* `Yacl.Sse.C106_precedence_violated`: , violated: AND does not bind tighter than OR, and NOT applies to all that follows.
* `Yacl.Sse.C106_order_violated`: , violated: with twenty keywords the result depends on the iteration order of the map: `v2` is also replaced inside `v20`.
* `Yacl.Sse.C106_syntax_violated`: , violated: parentheses are refused (the result is false), and an operator without operands reads an empty stack.
* `Yacl.Sse.C107_search_violated`: , violated: after `SaveEDB` and `LoadEDB`, every search, for every query, returns nothing, although before saving a search for any keyword of the database returned its records. (The labels are not written to the file.)
* `Yacl.Sse.C107_iv_violated`: , violated: the IVs are not saved either. With no IVs, a search that has a match throws.
* `Yacl.Spi.C108_negative_violated`: , violated: a library registered with a negative priority comes before all others.
* `Yacl.BigInt.Lib.C109_unit_violated`: Units of 32 bits and more are not refused: the shift is undefined.
* `Yacl.BigInt.Back.C110_division_violated`: The two libraries disagree on `-1 / 2`; with OpenSSL's (and `MPInt`'s) quotient, quotient and remainder do not fit together.
* `Yacl.BigInt.Back.C110_negative_modulus_violated`: With a negative modulus the two libraries disagree: `1 + 1` modulo `-3` is 2 with OpenSSL and -1 with GMP.
* `Yacl.BigInt.Back.C110_lcm_violated`
* `Yacl.BigInt.Back.C110_shift_violated`
* `Yacl.BigInt.Back.C110_gmp_random_violated`: the random numbers of the GMP backend are not random: whatever the process and the interleaving, two threads (of the same process or of two processes) that make the same requests get the same numbers.
* `Yacl.Drbg.Gm.C111_derive_violated`: with a library that refuses a null length, deriving gives 32 zero bytes for every input of at least 32 bytes; with one that does not, it overruns a buffer; inputs of fewer than 32 bytes overrun one in any case.
* `Yacl.Drbg.Gm.C111_truncated_violated`: the key that `derive` computes looks at the length and the first 24 bytes of its input only (the buffer is cut to 32 bytes, of which 8 are lengths).
* `Yacl.Drbg.Gm.C111_no_entropy_violated`: the numbers do not depend on the entropy. Whatever the cipher and the hash, two generators built from different entropy and different nonces, and fed different entropy afterwards (in answers of the same sizes), fill the same bytes.
* `Yacl.Drbg.Gm.C111_first_block_violated`: the very first bytes are a constant of the cipher: the block `E(0, E(0, 1) + 1)`, encrypted moreover under the key from before the update.
* `Yacl.Drbg.Gm.C111_reseed_violated`: none of the entropy sources answers with 32 bytes, so a reseed always throws.
* `Yacl.Drbg.Gm.C111_runs_dry_violated`: a generator fills exactly 1024 requests; from then on every request throws.
* `Yacl.Drbg.Gm.C111_additional_violated`: additional input of fewer than 32 bytes overruns a buffer, whatever the library.
* `Yacl.Drbg.Gm.C111_source_sizes_violated`: ... and with none at all for some larger ones.
* `Yacl.Drbg.Gm.C111_provider_seed_violated`: the seed that yacl's provider hands to OpenSSL's generators does not come from the entropy source: it is what the memory held, xored with the additional input.
* `Yacl.Drbg.Gm.C111_provider_generate_violated`: With the entropy source of Intel processors the provider's `generate` refuses every request of two bytes or more.
* `Yacl.Rand.C112_seed_violated`: ... while `RandSeed` never sets one of the upper 64 bits.
* `Yacl.Rand.C112_get_seed_violated`: ... but not from the seed it reports: that one has lost its upper half, and two objects with different seeds report the same.
* `Yacl.Link.Blackbox.C113_topic_distinct_violated`: ... with hyphens two pairs of four different parties can share a topic, and so a queue if the two receivers share a node.
* `Yacl.Link.Blackbox.C113_queue_violated`: ... but a message whose answer is lost on the way (a timeout of the pop is enough) is gone: the sender's push was accepted and no later pop brings it back.
* `Yacl.Link.Blackbox.C113_stop_violated`: if `Stop` is called before the new thread has come to run, the thread sets the flag again and never ends: from then on, whatever happens, `Stop` does not return.
* `Yacl.Link.Blackbox.C113_descriptor_violated`: a context over the black-box transport does not honour two fields of its descriptor that the normal one honours.
* `Yacl.Link.Blackbox.C113_env_violated`: Values with `=` in them (padding of base64, say) are refused, a name loses every occurrence of the prefix, and a variable that only begins with the key for the own role counts as one.
* `Yacl.Kernel.BaseOt.C114_platforms_violated`: ... so a receiver on one platform and a sender on the other (the assembly version works in fours, the portable one singly) cannot complete a run of a number of transfers that four does not divide.
* `Yacl.Bp.R1cs.C115_hiding_violated`: , violated: a proof is to hide the blinding factors of its commitments. `e_blinding` is not reduced modulo the order, so that of a proof of one phase gives, together with the public challenge `x`, the blinding factor of `A_I1` modulo `x`; and all three of them when the first two are below `x`.
* `Yacl.Bp.Bytes.C116_ipp_negative_violated`: a negative scalar is not read back: the sign bit is taken for a digit.
* `Yacl.Bp.Bytes.C116_r1cs_write_violated`: , violated: a proof can be written. Every proof whose two final scalars have 208 bits or more (all but a fraction below 2^-46 of the scalars of a 256-bit group) is written beyond the end of the buffer.
* `Yacl.Bp.Bytes.C116_r1cs_scalar_violated`: , violated: reading back keeps the blinding factor. `e_blinding` is not reduced by the prover (C115) and is cut to 256 bits: its class modulo the order is kept only when the order divides the part cut off (for the order of a 256-bit curve: when that part is zero or a multiple of the order).
* `Yacl.Bp.Bytes.C116_unique_violated`: , violated: the bytes of a proof are determined by the proof. Bytes behind the end are ignored, and so is the multiple of the order in the two scalars.
* `Yacl.Silver.C117_truncated_violated`: The constructor does not keep its argument when it has more than 32 bits: it silently builds the code of length `n mod 2^32`.
* `Yacl.SvoleKernel.C118_streaming_violated`: Streaming evaluation writes the sender's part of every round to the place of the last one: whatever the sessions do, the elements of `c` before it keep their old contents.
* `Yacl.SvoleKernel.C118_streaming_witness_violated`: Streaming five VOLEs in steps of two: good sessions, but the first four elements of the sender keep the old contents, so that the result is not a VOLE.
* `Yacl.SvoleKernel.C118_swallowed_violated`: The kernel does not report failed sessions: if session `j` leaves its parts as they were because it threw, the call still returns, with the old contents in that part.
* `Yacl.OtMock.C119_zero_delta_violated`: With delta 0, `MockCots` makes a compact store that `GetBlock` takes for a store of random OTs: its OT 1 is block 2, and the second message of a single OT is read outside the buffer.
* `Verif.Aes.C120_decrypt_violated`: **C120** fails for decryption of 2^32 blocks: the count does not fit the `unsigned` parameter, no block is decrypted and the result is all zeros, for every key and every input.
* `Verif.Ecc.Openssl.C121_generator_violated`: **C121, violated.** `GetGenerator` hands out the group's own generator: after doubling it in place the group object answers `GetGenerator` with `2·G`.
* `Verif.Ecc.Openssl.C121_copy_violated`: **C121, violated.** Copying an `EcPoint` by C++ assignment shares the point: an in-place update of the copy changes the original.
* `Verif.Ecc.Openssl.C121_cofactor_violated`: **C121, violated.** On a curve with a cofactor, `MulDoubleBase(s1, s2, p)` is not `s1·G + s2·p`: it reduces `s2` modulo the order of the generator, which is not a multiple of the order of `p`. `Mul` has no such error.
* `Verif.Ecc.Openssl.C121_deserialize_violated`: **C121, violated.** Deserializing an empty buffer reads a byte beyond it, and any bytes after a leading zero are ignored, so that buffers which no serialization produces give the point at infinity.
* `Verif.Ecc.Openssl.C121_infinity_violated`: **C121, violated.** The coordinates of the point at infinity are `(0, 0)`, and copying them back never gives the point at infinity.
* `Verif.Ecc.Openssl.C121_hash_violated`: **C121, violated.** `HashPoint` throws on a point with x coordinate 0, and P-256 has such points.
* `Verif.Ecc.Openssl.C121_shake_violated`: **C121, violated.** The SHA3 strategy selects SHAKE256 for curves above 256 bits, but the result does not depend on SHAKE256 at all.
* `Verif.Ecc.Ed25519.C122_order_two_violated`: **C122, violated.** The point `(0, -1)` is taken for the point at infinity: it compares equal to it, and multiplying it by 1 gives the point at infinity.
* `Verif.Ecc.Ed25519.C122_cofactor_violated`: **C122, violated.** A point with a component of small order is multiplied by the scalar modulo `n`: `Mul(P, n)` is the point at infinity although `n·P` is not.
* `Verif.Ecc.Ed25519.C122_off_curve_violated`: **C122, violated.** Any pair `(0, y)` passes the check of `CopyPoint` that coordinates are on the curve.
* `Verif.Ecc.Ed25519.C122_coordinates_violated`: **C122, violated.** `CopyPoint` drops the sign of a coordinate and its bit 255: `(-x, y)` and `(x + 2^255, y)` are taken for `(x, y)`.
* `Verif.Ecc.Ed25519.C122_sign_violated`: **C122, violated.** The bytes of `y = -1` with the sign bit set, which RFC 8032 rejects, are decompressed to `(0, -1)`.
* `Verif.Ecc.Ed25519.C122_deserialize_violated`: **C122, violated.** libsodium's `DeserializePoint` returns a point for bytes the library rejects, and both backends read 32 bytes of a shorter buffer.
* `Verif.Ecc.Names.C123_openssl_violated`: **C123, violated.** OpenSSL's curves `ipsec3`, `ipsec4` and `c2pnb176v1` are in the library's table, but no name whatsoever leads to them: the first two are filed under keys with capitals, the third is not a predefined curve.
* `Verif.Item.C124_overlap_violated`: **C124 violated** In-place calls on overlapping slices of one array (a slice and the same slice moved by one) do not give the sums of the elements, and what they give depends on the schedule: running forward the elements of the second operand are changed before they are used.
* `Verif.Item.C124_half_done_violated`: **C124 violated** An in-place call that throws (a zero divisor at index 1) has already changed other elements: what is left is neither the old nor the new vector, and how much of it is done depends on the schedule.
* `Verif.Item.C124_type_violated`: **C124 violated** Items of another type are refused by an exception everywhere except as a scalar destination of an in-place call: there the null pointer that `As<T*>` returns is used.
* `Verif.GfLib.C125_release_neg_violated`: **C125 violated** In a release build `Neg` of a number outside of the field returns a number outside of the field, and not the one `NegInplace` returns: `Neg(p + 1) = -1`, `NegInplace` gives `p - 1`. `Add`, `Sub`, `Mul` reduce such numbers.
* `Verif.GfLib.C125_pow64_violated`: **C125 violated** `Pow` of the 64-bit field returns one for every base and every exponent (the loop ends before the exponent is one, and multiplies only if it is), so it is not the power: for instance not for the exponent one.
* `Verif.GfLib.C125_inv128_violated`: **C125 violated** In the 128-bit field `Pow`, `Inv` and `Div` throw for all arguments.
* `Verif.GfLib.C125_mul_order_violated`: **C125 violated** The binary fields report the number of elements as the order of the multiplicative group; raising to the reported order does not give one, raising to the number below it does.
* `Verif.GfLib.C125_binary_serialize_violated`: **C125 violated** `Serialize` of an item of a binary field throws for every scalar and every non-empty vector: the element serializer, asked for the size with a null buffer of length zero, refuses the length. Only the empty vector has a serialization, the msgpack head of an empty array.
* `Verif.GfLib.C125_binary_degree_violated`: **C125 violated** The binary library offers itself for every degree, and then cannot create the field unless the degree is 64 or 128: the factory selects it and throws.
* `Verif.GfLib.C125_mcl_modulus_violated`: **C125 violated** Creating a second mcl prime field with another prime changes the first: it still reports its own order `p`, but computes modulo the new one, so that one added `p` times is not zero.
* `Yacl.Tpre.C126_empty_violated`: **C126 violated** The empty message is encrypted, but nobody can decrypt it.
* `Yacl.Vss.C127_zero_point_violated`: **C127 violated** The points are drawn below the prime, so 0 can be drawn. Then one share is the secret itself, for every threshold from 2 on, every secret and all random coefficients.
* `Yacl.HashObj.C128_hmac_empty_violated`: The empty key, which RFC 2104 allows, cannot be used: the constructor throws for every algorithm.
* `Yacl.BigInt.Front.C129_default_violated`: The calls that use the default library break the property for every other one: a number overwritten by `RandomExactBits(bits, &r)` changes its library, so that the next operation with its old companions throws, and `CreateMontgomerySpace` refuses every modulus.
* `Yacl.Link.Brpc.C130_spoof_violated`: The rank in a request is believed: whoever reaches the port of party `j` can put a message into the channel of any other party `i`, and `j`'s `Recv` from `i` returns it.
* `Yacl.Link.Brpc.C130_exception_violated`: One bad request makes an exception leave the service function of the peer: a chunk reaching beyond its message, whatever the state of the channel.
* `Yacl.Link.Brpc.C130_stale_chunk_violated`: A chunk that is repeated after its message was complete stays behind for ever; without sequence numbers (`disable_msg_seq_id`), a later message under the same key is delivered with the old bytes in its place: here the message 3, 4 arrives as 3, 2.
* `Yacl.Link.Brpc.C130_options_violated`: The h2 window is one flag of the process: making a second context with a smaller payload leaves the first with chunks larger than the window; and `SetMaxBytesPerChunk` keeps only 32 bits, so 4 GiB becomes an empty chunk.
* `Yacl.Pkey.C131_der_file_violated`: The functions that are to write DER files write PEM files: with any library whose two encodings of the key differ, the file does not hold the DER encoding.
* `Yacl.Pkey.C131_cert_violated`: Certificates for 49711 days or more: the number of seconds wraps around, the certificate expires after less than a day. Every certificate carries the version number 3, which stands for v4; version 3 is the number 2.
* `Yacl.Pkey.C131_cert_subject_violated`: Subject values are cut at the first zero byte: two different subjects get the same certificate; and a public key that does not belong to the signing key is certified, giving a self-signed certificate that does not verify.
* `Yacl.Pqc.C132_sign_key_size_violated`: `Sign` does not check the size of the secret key: with any algorithm and any shorter key it reads outside the key, and a longer one is used as if it were its own beginning.
* `Yacl.Ecc.Sodium.C133_mul_invalid_violated`: , negative: bytes that encode no element can be multiplied — `Mul` swallows the library's error and answers the neutral element for every scalar — although `Add` on the same point throws.
* `Yacl.Ecc.Sodium.C133_trailing_violated`: , negative: parsing ignores bytes after the first 32, so encodings are not unique once longer input is allowed.
* `Yacl.Ecc.Sodium.C133_domain_violated`: , negative: without a named strategy the tag does not separate domains — tag and message are joined without a length — and strategies of other curves are accepted and treated the same way.
* `Yacl.Ecc.Sodium.C133_ro_not_rfc_violated`: , negative: the `RO` strategy is not `hash_to_ristretto255` of RFC 9380 (whose suite has that name, and which maps 64 expanded bytes): it adds the images of two halves of 128 bytes.
* `Yacl.Ecc.Sodium.C133_x_inplace_violated`: , negative: for the key `order`, `MulInplace` and `Mul` give different points on the base point; and a key of more than 256 bits is accepted by `Mul` and throws in `MulInplace`.
* `Yacl.Ecc.Sodium.C133_x_mul_violated`: , negative: the multiplication of this group is not a multiplication by the scalar. Multiplying the base point by 2 and then by 3 does not give what multiplying by 6 gives; multiplying by 0 gives no neutral element; and 0 and 7 give the same point.
* `Yacl.Ecc.Sodium.C133_x_tag_violated`: , negative: hashing to X25519 ignores the caller's tag in every strategy; two applications with different tags get the same points.
* `Verif.Ecc.Mcl.C134_generator_violated`: **C134** fails without the discipline: `GetGenerator` hands out the one generator object of the process. Doubling the point it returned in place doubles the generator of every group object of the curve, and `MulBase` multiplies the wrong point from then on.
* `Verif.Ecc.Mcl.C134_affine_wrap_violated`: **C134** fails for coordinates that are not below the characteristic: a multiple of `256 ^ size` added to a coordinate, positive or negative, makes no difference, so numbers that are the coordinates of no point are accepted.
* `Verif.Ecc.Mcl.C134_long_buffer_violated`: **C134** fails for a caller's buffer longer than the announced length: the bytes after the encoding are cleared from one byte too early, so that the top byte of the last coordinate is lost. The buffer reads back as the point exactly if that byte was 0; infinity is not affected in the compressed format.
* `Verif.Ecc.Mcl.C134_malformed_violated`: **C134** fails for malformed bytes. Compressed: any first byte but 3 stands for an even `y`. Hybrid: the parity in the first byte is not compared with `y`. Uncompressed: coordinates that no point has are not refused, the call returns an object.
* `Verif.Ecc.Mcl.C134_hash_sm_violated`: **C134** fails for `TryAndIncrement_SM` on secp384r1 (and any field of more than 32 bytes): SM3 gives 32 bytes, reading 48 fails, the failure is not looked at, and every message hashes to the same point.
* `Verif.Ecc.Mcl.C134_hash_sswu_violated`: **C134** fails for the SSWU strategies: on every curve they return the coordinates of a point of P-256, P-384 or P-521, as an `AffinePoint`, on which the group's own operations throw.
* `Verif.Ecc.FourQ.C135_order_two_violated`: **C135** fails for the point `(0, -1)`, of order 2, which can be decoded and copied like any other: `IsInfinity` takes it for the neutral element, and `PointEqual` says that the two are equal.
* `Verif.Ecc.FourQ.C135_sign_violated`: **C135** fails for negative coordinates: the sign is dropped, so that the negatives of the coordinates of a point, which are the coordinates of no point as numbers, are accepted for that point.
* `Verif.Ecc.FourQ.C135_short_input_violated`: **C135** fails for fewer than 32 bytes: `DeserializePoint` does not look at the size and reads beyond the end.
* `Verif.Ecc.FourQ.C135_mul_invalid_violated`: **C135** fails for a point FourQlib refuses (one off the curve): `Mul` does not look at the return value of `ecc_mul`, and the result is made of what the stack held.
* `Verif.Ecc.Pairing.C136_generator_violated`: , fails. Doubling in place the point `GetGenerator` returned doubles the generator: `MulBase(1)` then gives `2 • g1`, where the mathematics says `g1`.
* `Verif.Ecc.Pairing.C136_create_violated`: , fails. Making another pairing group writes to a point the program holds: after `GetGenerator` and `DoubleInplace` the variable is `2 • g1`, and after another `Create` it is `g1` again.
* `Verif.Ecc.Pairing.C136_confusion_violated`: , fails. Points of the two groups swapped, or mixed in an addition, are not found out: the code reads the one as the other.
* `Verif.Ecc.Pairing.C136_dst_violated`: , fails. The domain separation tag of `HashToCurve` is ignored: for all tags the points are the same.
* `Yacl.Link.Desc.C137_empty_violated`: a message in which nothing is set is not the default description: the default retries after every error, the message only does so for the error codes it lists (none listed: all of them).
* `Yacl.Link.Desc.C137_chunks_violated`: the number of chunks that may be in flight is not taken from the description: every channel uses 8.
* `Yacl.Link.Desc.C137_ciphers_violated`: cipher suites that are asked for on the client side are dropped, those of the server side are used.
* `Yacl.Link.Desc.C137_blackbox_default_violated`: a description with the default protocol is never accepted for a black-box link, although the transport's own default (http) would do; a user has to name the protocol.
* `Yacl.Link.Desc.C138_hash_violated`: equal descriptions need not have equal hash codes, as a container keyed by descriptions requires: descriptions that differ only in the kind of link are equal but hash differently unless the two texts collide.
* `Yacl.Link.Desc.C138_timeout_violated`: so the parties of one world are not connected when one of them asks for another receive timeout.
* `Yacl.Link.Desc.C138_link_type_violated`: ... in general: two parties of one world that name different kinds of link are not connected, whatever the hash function does with the other values.
* `Yacl.Link.Desc.C138_settings_violated`: other settings are shared silently: the second party gets a context that follows the first party's description, not the one it passed.
* `Yacl.Bp.Transcript.C139_long_label_violated`: with labels of 256 bytes and more the binding is lost: the length of the label is written in one byte, and a message under such a label leaves the same state as another message under the empty label.
* `Yacl.Bp.Transcript.C139_challenge_confusion_violated`: ... and a message under a label of 99 bytes can leave the state of a request for a challenge.
* `Yacl.SecParam.C141_collision_violated`: , negated in one respect: an undeclared name can have the hash of a declared one, and then is taken for it. "plumless" declared, "buckeroo" asked for.
* `Yacl.SecParam.C141_global_violated`: , negated: the enforcement passes in one unit although another unit of the program includes a weaker module; after that other unit has asked, the same enforcement in the same unit fails.
* `Yacl.SecParam.C141_folded_violated`: , negated: where two units number their modules differently, the linker keeps one of the two functions that look at module 0, and a unit with a weak module is told the parameter of the other unit's module.
* `Yacl.SecParam.C141_counter_violated`: , negated: exactly 256 modules compile, and the last one does not count.
* `Yacl.NoiseWeight.C142_reaches_violated`: , negated: the quotient is cut off, not rounded up; when what is left is a multiple of 8, the level is missed. Ratio 0.15 at 128 bits gives 248 positions, where 249 are needed.
* `Yacl.NoiseWeight.C142_small_violated`: , negated: some ratios above 0 pass the check and give a number that does not fit.
* `Yacl.Scripts.C144_gilboa_violated`: Violation: a Gilboa VOLE called with `mal = true` never runs the consistency check; the flag only sets the step.
* `Yacl.Scripts.C144_silent_violated`: Violation: nor does a silent VOLE built with `mal = true`; only its multi-point VOLE is checked.
* `Yacl.ByteView.C146_null_violated`: fails for two empty containers one of which has no storage (an empty vector and an empty string): `memcmp` is called with a null pointer, which is undefined.
* `Yacl.ByteView.C146_literal_violated`: fails for string literals (and character arrays) that contain a zero byte: the view of `"a\0b"` shows only `a`, so literals that differ after a zero byte are equal.
* `Yacl.Cuda.C147_slots_violated`: fails in what the pipeline is for: with slots of its own, as in the code, the GPU thread never delivers anything. Every call that ends has computed everything again after the pipeline, whatever the GPU does.
* `Yacl.Cuda.C147_overflow_violated`: fails for the largest batches that pass the check of L720-721: the number of chunks overflows.
* `Yacl.Cuda.C147_hang_violated`: With wrapping arithmetic the number of chunks is then negative: both loops are skipped and the caller waits for ever for the last chunk, while the GPU thread has returned.
* `Yacl.Cuda.C151_blocks_violated`: the number of blocks overflows for the counts above `2 ^ 31 - 256`, which the interface accepts.
* `Yacl.Cuda.C151_digest_offset_violated`: from `2 ^ 26 + 1` digests on, a digest is read at an offset that leaves `int`.
* `Yacl.Cuda.C151_sm3_shift_violated`: the rounds of the device's SM3 in which the constant is rotated by zero shift a 32-bit word by 32.
* `Yacl.Cuda.Mem.C152_in_flight_violated`: **C152** (the wrappers take no lock). The last group may be destroyed by another thread while a call is in progress: then the block the call's kernel is given is no longer live.
* `Yacl.Cuda.Mem.C152_registry_violated`: **C152** (the registry only grows). The callbacks of threads that have ended are kept, also after the last group is gone: for every `n` there is a history after which no group is left, and the registry holds `n` callbacks, each of a thread that has ended.

### Seen while reading, not proved

These come from reading the code and are outside the model; they are listed so that nobody takes silence for a proof.

* `crypto/rand/drbg/openssl_factory.cc`: the provider's random context is a parent of the generator but is released when the
  constructor ends.
* `crypto/aead/all_in_one`: `GetMacSize` returns key sizes; the SM4 "MTE" mode ignores additional data and tag; an empty
  plaintext cannot be decrypted; the size of the tag span is not checked in GCM mode.
* `crypto/hmac/hmac.cc`: `Reset` passes the table of gettable parameters to the library.
* `crypto/ecc/hash_to_curve`: `HashToScalar` for P-384 and P-521 always throws; `oprf_ctx.h` uses the non-uniform suites;
  `GetHashToCurveCtxByName` uses `operator[]` and so inserts an empty entry for an unknown name.
* `math/bigint/gmp`: `InvMod` ignores the result of `mpz_invert`; `PowMod` with a negative exponent and no inverse aborts;
  `Set(string)` ignores parse errors; `RandPrimeOver` can exceed the size asked for.
* `math/bigint/openssl`: sizes are narrowed from `size_t` to `int` in `GetBit`, `SetBit` and `Deserialize`; a moved-from number
  holds a null pointer.
* `utils/spi/item.h`: `ResizeAndSpan` does not shrink a larger vector.
* `io/stream/mem_io.h`: `Read` uses `readsome`, so a short read goes unnoticed, while the file version throws.
* `kernel`: `FerretCotHelper` ignores its `mal` argument in the size check; several sizes are narrowed to 32 bits; `KkrtOtExtSend`
  can be asked twice for the same index.
* `base/exception.h`: `YACL_ENFORCE("text")` never fires.
- `yacl/kernel/svole_kernel.cc`: `eval_streaming` of the sender uses the offset of the last step in every step (L159), so only the last block of `c` is ever written, and with several steps the part sizes differ from the receiver's. `step_size` is not checked, so 0 divides by zero. `eval_multithread` drops the futures of its tasks, so an exception in a session is lost and the call returns with that part unfilled.
- `yacl/kernel/algorithms/base_ot.cc`: `BaseOtSend` does not check that the link has two parties (`BaseOtRecv` does).
- **Malicious flag lost (C144).** `GilboaVoleSend/Recv` (base_vole.h L117, L133) and `SilentVoleSender/Receiver` (silent_vole.h L89, L143)
  build `SoftspokenOtExtSender(2, mal)`. The second parameter is `step`, not `mal`: the OT extension runs in semi-honest mode with step 1.
- **Delta 0 (OT store).** `SetDelta` refuses 0, the constructor does not; a compact store built with delta 0 is read by `GetBlock` as a
  random store, at indexes `2 * i + b` of a buffer with one block per OT (ot_store.cc L305-314).
- **SyncSeed and world size (C144).** `SyncSeedSend/Recv` talk to the next rank only; with three or more parties no pair matches.

- **GPU code for SM2, counts near the limit of int** (`C151_blocks_violated`): `(count + 255) / 256` is computed in `int`, so counts above 2^31 - 256, which the interface accepts, overflow.
- **GPU code for SM2, digest offset** (`C151_digest_offset_violated`): `digests + idx * 32` is computed in `int` and overflows from the digest of index 2^26 on; the host passes larger batches.
- **GPU code for SM2, SM3 rotation** (`C151_sm3_shift_violated`): `rotl32(Tj, j & 31)` shifts a 32-bit word by 32 in the rounds 0 and 32, which is undefined in C++.
- **GPU code for SM2, pipeline slots** (C147): the slots of the two-thread pipeline are `thread_local`, so the worker thread never sees those the caller allocated and the fallback is taken.
- **Byte views** (`C146_null_violated`, `C146_literal_violated`): comparing two empty containers one of which has no storage calls `memcmp` with a null pointer; a view of a literal that contains a zero byte stops at that byte.
- **OpenSSL hash to curve**: the SHAKE256 strategy builds its hash with SHAKE128 (openssl_group.cc L379, L401), so both strategies give the same point.
* `Yacl.Cuda.Mem.C152_in_flight_violated`: a batch call holds no lock on the state; if another thread destroys the last group meanwhile, the buffers of the call are freed under it.
* `Yacl.Cuda.Mem.C152_registry_violated`: the registry of workspace callbacks keeps an entry for every thread that ever made a call, also after all groups and threads are gone.
