{"id": "C01", "title": "Every committed message lands in its own slot", "statement": "If MerkleTree::try_commit succeeds, then for every (protocol, message) of the source the tree holds exactly that pair in the leaf slot given by protocol_id_pos, no two protocols share a slot, no slot holds anything that was not in the source, and messages/method/entropy are carried over unchanged.", "quantifier": "every MultiSource (any map of up to 2^24-1 messages, any min_depth, any entropy)", "why_tests_cant": "The slot of a protocol is a residue of a 256-bit id; tests sample a few random maps, the claim is over all maps.", "anchors": ["commit_verify/src/mpc/tree.rs: try_commit, protocol_id_pos, MerkleTree"]}
{"id": "C02", "title": "try_commit returns the first fitting (depth, cofactor)", "statement": "The (depth, cofactor) of the tree is the first pair, in order of depth starting at min_depth and then of cofactor, at which all messages fit into distinct slots; the cofactors tried are 0..=1 at min_depth and 0..=min(2^(depth-1), 500) at every later depth, and depths whose width is below the number of messages are skipped. Hence the result does not depend on anything but the source.", "quantifier": "every MultiSource for which try_commit succeeds, and every earlier attempt", "why_tests_cant": "Minimality is a statement about all smaller attempts; determinism across parties depends on it.", "anchors": ["commit_verify/src/mpc/tree.rs: try_commit, COFACTOR_ATTEMPTS"]}
{"id": "C03", "title": "try_commit fails exactly when documented, and never panics", "statement": "With an entropy value available, try_commit never panics or overflows; it returns Empty exactly for no messages with zero min_depth; it returns CantFitInMaxSlots(n) exactly if every attempt up to depth 31 has two protocols in one slot; TooManyMessages is never returned for a MessageMap (which holds at most 2^24-1 entries). With neither static entropy nor the rand feature it panics.", "quantifier": "every MultiSource, both build profiles, with and without rand", "why_tests_cant": "Absence of panic and exactness of errors are universal claims.", "anchors": ["commit_verify/src/mpc/tree.rs: try_commit, Error"]}
{"id": "C04", "title": "Small sets of protocols always fit", "statement": "Any set of at most 22 distinct protocol ids can be committed together when min_depth is at most 13 (the default is 3), and any set of at most 10 when min_depth is at most 30: given a source of entropy, try_commit succeeds, whatever the ids (adversarial ones included). In between the guaranteed number decreases from 21 to 12; at min_depth 31 it is 1.", "quantifier": "every source (ids, messages, method, entropy) with that many messages or fewer", "why_tests_cant": "2^512 pairs; adversarial ids congruent modulo many slot counts are never sampled by random tests. Needs a number-theoretic argument on the tried moduli.", "anchors": ["commit_verify/src/mpc/tree.rs: try_commit, protocol_id_pos"]}
{"id": "C05", "title": "CantFitInMaxSlots is reachable", "statement": "For every min_depth d there is a source of at most 1 + 63*(32 - d) messages for which try_commit returns CantFitInMaxSlots (with the number of messages), whatever the method and the entropy; at min_depth 31 two messages are enough. So a committer who accepts ids from others can be denied a commitment.", "quantifier": "existence, for each min_depth from 0 to 31", "why_tests_cant": "No unit test builds such ids; the existence claim needs every (depth, cofactor) attempt to collide.", "anchors": ["commit_verify/src/mpc/tree.rs: try_commit, Error::CantFitInMaxSlots"]}
{"id": "C06", "title": "Slots are inside the tree", "statement": "protocol_id_pos(id, cofactor, depth) equals the id, read as a little-endian 256-bit integer, modulo max(2^depth - cofactor, 1), without any truncation, and is therefore always smaller than width_limit.", "quantifier": "every id, every u16 cofactor, every depth 0..=31", "why_tests_cant": "Covers all 2^256 ids times all cofactors, including cofactors above the width.", "anchors": ["commit_verify/src/mpc/tree.rs: protocol_id_pos", "commit_verify/src/mpc/block.rs: MerkleBlock::protocol_id_pos"]}
{"id": "C07", "title": "factored_width is 2^depth - cofactor and positive for committed trees", "statement": "For every tree returned by try_commit (and blocks and proofs derived from it) cofactor < 2^depth, so factored_width returns 2^depth - cofactor without overflow, and every slot in use is below factored_width.", "quantifier": "every tree built by try_commit and everything derived from it; the exact failure condition for decoded values", "why_tests_cant": "Depends on the relation between the cofactor bound and the depth for all sources.", "anchors": ["commit_verify/src/mpc/tree.rs: factored_width", "commit_verify/src/mpc/block.rs: factored_width"]}
{"id": "C08", "title": "Commitment with static entropy is deterministic and verifiable", "statement": "With static entropy, two runs of try_commit on the same source give equal trees, and TryCommitVerify::verify accepts a tree for a source exactly if it is the tree try_commit produces; it reports InvalidMessage exactly if the source cannot be committed. Without static entropy verification of a tree succeeds only if the RNG returns the tree's entropy again.", "quantifier": "every source, every tree, every RNG output", "why_tests_cant": "Quantifies over RNG outputs and all sources.", "anchors": ["commit_verify/src/mpc/tree.rs: try_commit", "commit_verify/src/commit.rs: TryCommitVerify::verify"]}
{"id": "C09", "title": "Tree, block and concealed form have one commitment", "statement": "For every MerkleTree value: MerkleBlock::from(tree), tree.conceal() and the tree itself have the same commit_id, the concealed merkle_root is tree.root(), and nothing of this can panic.", "quantifier": "every MerkleTree value of depth 0..=31, also ones not built by try_commit", "why_tests_cant": "Relates an iterative left-to-right aggregation to a recursive merklization for every width 2^0..2^31 and every leaf population.", "anchors": ["commit_verify/src/mpc/tree.rs: root, conceal", "commit_verify/src/mpc/block.rs: From<&MerkleTree>, conceal", "commit_verify/src/merkle.rs: merklize"]}
{"id": "C10", "title": "Concealing never changes the commitment", "statement": "conceal_except and conceal_other, whether they return Ok or Err, leave commit_id of the block unchanged, and so do any number of further calls.", "quantifier": "every structurally valid block and every list of protocol ids", "why_tests_cant": "All block shapes and all id lists.", "anchors": ["commit_verify/src/mpc/block.rs: conceal_except, conceal_other"]}
{"id": "C11", "title": "Concealing reveals exactly what was asked for", "statement": "After a successful conceal_except(ids) the known messages are exactly those of the block whose protocol is in ids, in the same order, nothing else is revealed, and the entropy is gone.", "quantifier": "every structurally valid block, every list of ids (with repetitions)", "why_tests_cant": "Privacy claim over all blocks and id lists.", "anchors": ["commit_verify/src/mpc/block.rs: conceal_except, known_protocol_ids, to_known_message_map"]}
{"id": "C12", "title": "Concealed blocks are minimal and canonical", "statement": "After a successful conceal_except no two sibling nodes are both concealed; the resulting block depends only on the tree and the set of ids kept, not on the order, repetitions or earlier concealments; concealing twice with the same ids changes nothing.", "quantifier": "every structurally valid block, every pair of id lists", "why_tests_cant": "Confluence of a rewriting loop for all trees.", "anchors": ["commit_verify/src/mpc/block.rs: conceal_except"]}
{"id": "C13", "title": "conceal_except reports the missing protocols", "statement": "conceal_except errs exactly if some requested id is not a revealed leaf, and the id reported is the smallest missing one.", "quantifier": "every structurally valid block, every id list", "why_tests_cant": "All id lists.", "anchors": ["commit_verify/src/mpc/block.rs: conceal_except, LeafNotKnown"]}
{"id": "C14", "title": "A failed conceal_except leaves the block unchanged", "statement": "If conceal_except returns an error the block still reveals what it revealed before. (False of the code: the error is detected after the leaves were concealed and the entropy dropped; only the commitment and the requested leaves survive.) Exactly, for any block: the leaves that were not requested become hashes and the entropy is dropped, so nothing changes exactly if the block has no entropy and reveals nothing but requested messages. The same holds of conceal_other, which on failure hides all messages.", "quantifier": "every structurally valid block and every id list with a missing id", "why_tests_cant": "Needs the state at the error exit for all inputs.", "anchors": ["commit_verify/src/mpc/block.rs: conceal_except"]}
{"id": "C15", "title": "conceal_except terminates on every input and counts the concealed nodes", "statement": "conceal_except terminates for every block value, also a malformed one decoded from the wire, in both build profiles; on success the returned number is the number of leaves hidden plus the number of sibling pairs aggregated, i.e. hidden leaves + (nodes before - nodes after).", "quantifier": "every block value, every id list, both build profiles", "why_tests_cant": "Termination of a nested loop that mutates the sequence it walks, on unbounded input.", "anchors": ["commit_verify/src/mpc/block.rs: conceal_except"]}
{"id": "C16", "title": "Every revealed message of an honest block can be proven", "statement": "For every block obtained from a committed tree and every protocol it reveals, to_merkle_proof succeeds and the proof, convolved with that protocol and message, gives the commitment of the tree; the proof has depth and cofactor of the tree and pos = protocol_id_pos.", "quantifier": "every source that commits, every block derived from it, every revealed protocol", "why_tests_cant": "Completeness over all trees and all concealment states.", "anchors": ["commit_verify/src/mpc/block.rs: to_merkle_proof, into_merkle_proof, into_known_proofs, MerkleProof::convolve"]}
{"id": "C17", "title": "A merkle proof does not depend on what else was concealed", "statement": "The proof extracted for a protocol is the same from the full block, from any partially concealed block of the same tree, and from a block rebuilt from that proof.", "quantifier": "every tree, every concealment history that keeps the protocol revealed", "why_tests_cant": "All concealment histories.", "anchors": ["commit_verify/src/mpc/block.rs: into_merkle_proof, conceal_except, MerkleBlock::with"]}
{"id": "C18", "title": "A commitment binds each protocol to one message", "statement": "If two proofs for the same protocol convolve with messages m1 and m2 to the same commitment, then m1 = m2 (and the two proofs agree in position, cofactor and path), unless two different byte strings hashed during these two computations have the same SHA256.", "quantifier": "every pair of proofs (any bytes), protocols and messages; every hash function", "why_tests_cant": "Adversarial proofs; security reduction.", "anchors": ["commit_verify/src/mpc/block.rs: MerkleProof::convolve, MerkleBlock::with", "commit_verify/src/mpc/tree.rs: protocol_id_pos"]}
{"id": "C19", "title": "Proof positions are checked", "statement": "convolve and MerkleBlock::with return InvalidProof exactly if the proof's position differs from the protocol's slot for the proof's cofactor and depth, and the error carries the expected and actual positions and the width.", "quantifier": "every proof with a path of at most 31 hashes, every protocol and message", "why_tests_cant": "All proofs.", "anchors": ["commit_verify/src/mpc/block.rs: MerkleBlock::with, InvalidProof"]}
{"id": "C20", "title": "Verifying a proof never panics", "statement": "convolve on any decoded proof returns Ok or Err. (False of the code for a path of 32 hashes, which the path type admits: computing the depth panics; true for every path of at most 31 hashes, in both build profiles.)", "quantifier": "every proof with path length 0..=32", "why_tests_cant": "All attacker-supplied proofs.", "anchors": ["commit_verify/src/mpc/block.rs: MerkleProof::depth, MerkleProof::convolve, path: Confined<Vec<MerkleHash>, 0, 32>"]}
{"id": "C21", "title": "Only committed messages can be proven against a tree", "statement": "If any proof convolves with (protocol, message) to the commitment of a committed tree then (protocol, message) is in the tree's source, unless two different byte strings hashed by the prover's tree and the verifier have the same SHA256. With C16: provable = committed.", "quantifier": "every committed tree, every proof, protocol and message", "why_tests_cant": "Adversarial proofs against all trees.", "anchors": ["commit_verify/src/mpc/block.rs: MerkleProof::convolve", "commit_verify/src/mpc/tree.rs: root, try_commit", "commit_verify/src/mpc/atoms.rs: Leaf"]}
{"id": "C22", "title": "A block rebuilt from a proof is the concealed block", "statement": "MerkleBlock::with(proof, protocol, message), for the proof extracted from a block, equals that block after conceal_except([protocol]).", "quantifier": "every honest block and revealed protocol", "why_tests_cant": "Round trip between two representations at every depth and position.", "anchors": ["commit_verify/src/mpc/block.rs: MerkleBlock::with, into_merkle_proof"]}
{"id": "C23", "title": "Merging related blocks reveals the union", "statement": "If two structurally valid blocks have the same commitment, merge_reveal succeeds without panic, keeps the commitment, and the result reveals exactly the messages revealed by either, in tree order - unless two different byte strings hashed for the two commitments have the same SHA256.", "quantifier": "every pair of structurally valid blocks", "why_tests_cant": "The merge walks two irregular sequences with a depth buoy; all pairs of partial trees.", "anchors": ["commit_verify/src/mpc/block.rs: merge_reveal, merge_reveal_path", "commit_verify/src/merkle.rs: MerkleBuoy"]}
{"id": "C24", "title": "Merging unrelated blocks is refused without side effects", "statement": "If the commitments differ merge_reveal returns UnrelatedBlocks with both commitments and the block is unchanged; merge_reveal_path with a wrong position returns InvalidProof and the block is unchanged.", "quantifier": "every pair of structurally valid blocks, every proof", "why_tests_cant": "All pairs.", "anchors": ["commit_verify/src/mpc/block.rs: merge_reveal, merge_reveal_path, MergeError"]}
{"id": "C25", "title": "Merging is idempotent, commutative and associative", "statement": "On related blocks, merge_reveal gives the same cross-section whatever the order and grouping of merges and merging a block with itself changes nothing.", "quantifier": "every triple of related structurally valid blocks", "why_tests_cant": "Algebraic laws over all partial trees.", "anchors": ["commit_verify/src/mpc/block.rs: merge_reveal"]}
{"id": "C26", "title": "Proofs of all protocols merge back into the concealed tree", "statement": "Starting from the block of one proof and merging in, in any order, the proofs of other protocols of the same tree gives the same block as concealing everything but these protocols in the full tree.", "quantifier": "every committed tree, every non-empty list of its protocols in any order", "why_tests_cant": "Folds over arbitrary many merges.", "anchors": ["commit_verify/src/mpc/block.rs: merge_reveal_path, conceal_except, MerkleBlock::with"]}
{"id": "C27", "title": "merge_reveal returns the number of nodes", "statement": "The number returned by merge_reveal is the number of nodes of the merged cross-section. (False of the code from 65536 nodes on: the number is cut to 16 bits; true exactly below.)", "quantifier": "every pair of related blocks", "why_tests_cant": "Needs a block of 65536 nodes and more.", "anchors": ["commit_verify/src/mpc/block.rs: merge_reveal"]}
{"id": "C28", "title": "MerkleBuoy surfaces exactly at complete subtrees", "statement": "Feeding a buoy, started with the depth of the first node, the depths of the following nodes of a complete subtree rooted at depth d, its level stays below (is greater than) d until the last node is pushed and is d afterwards with nothing nested; push never underflows. Conversely, as long as the nodes do not exceed one tree, a buoy at level d with nothing nested has been given exactly the tips of a subtree rooted at d; in between, the level is the depth of the last of the subtrees completed so far. This holds for every type of depths: u5, u8 or any other.", "quantifier": "every binary subtree shape at every depth; every list of depths for the converse; every depth type whose values are numbers", "why_tests_cant": "All tree shapes.", "anchors": ["commit_verify/src/merkle.rs: MerkleBuoy::push, level"]}
{"id": "C29", "title": "Which blocks have a commitment", "statement": "In a debug build commit_id of a MerkleBlock returns a value exactly if its cross-section is the frontier of a binary tree with revealed leaves at the block's depth and hidden nodes not deeper than one level below it; for every other decoded block it panics (so decodable blocks exist for which computing the commitment panics). In both profiles a frontier never panics, and whenever a value is returned some prefix of the cross-section is such a frontier and the value is the commitment of that prefix. In a release build it returns a value exactly if the cross-section lists the nodes of a row of subtrees, the first of which is at the root, each larger one starting at a multiple of its size, with no neighbours being the two halves of a larger subtree or at the same depth 0 or below the leaves; otherwise it panics.", "quantifier": "every decodable MerkleBlock value, both build profiles", "why_tests_cant": "Exact characterisation over all malformed inputs.", "anchors": ["commit_verify/src/mpc/block.rs: MerkleBlock::conceal, conceal_except"]}
{"id": "C30", "title": "A block reveals at most one message per protocol", "statement": "A MerkleBlock with a given commitment cannot reveal two different messages for one protocol, nor a message that was not committed. (False of the code for decoded blocks: leaf positions are not checked, and in release builds nodes after a complete tree are ignored by commit_id, so any message can be appended without changing the commitment; true for every block obtained from a committed tree or from proofs by any sequence of conceal and merge operations, and for every structurally valid block whose leaves sit at their own slots.)", "quantifier": "every decodable block; every operation history", "why_tests_cant": "All histories, and an adversarial witness.", "anchors": ["commit_verify/src/mpc/block.rs: MerkleBlock, to_known_message_map, merge_reveal"]}
{"id": "C31", "title": "MerkleProof::matches tells whether proofs have the same commitment", "statement": "Two proofs match exactly if they produce the same commitment. (False of the code in both directions: it compares the cofactors and the first hash of the paths.) For trees and blocks matches is exactly equality of commitments, an equivalence relation. Exactly which proofs match: of the proofs of one tree those whose slots are in the same half of the tree, and accepted proofs of one message have one commitment exactly if they match and the rest of their paths agrees too (no SHA256 collision among the strings hashed).", "quantifier": "every pair of proofs, trees, blocks", "why_tests_cant": "Needs pairs from opposite tree halves and from unrelated trees.", "anchors": ["commit_verify/src/mpc/block.rs: MerkleProof::matches, merkle_root", "commit_verify/src/mpc/mod.rs: Proof"]}
{"id": "C32", "title": "Merklization is total and well-shaped", "statement": "MerkleHash::merklize returns a value for every collection of 0..=2^32-1 leaves without overflow of the 5-bit depth; its value is that of the LNPBP-81 tree: void for none, the leaf itself for one, otherwise nodes committing to their depth and to the total width, the left branch taking the larger half, and an unpaired leaf wrapped in a single node.", "quantifier": "every number of leaves up to 2^32-1 and all leaves", "why_tests_cant": "Recursion over unbounded widths; depth bound for widths close to 2^32.", "anchors": ["commit_verify/src/merkle.rs: merklize, _merklize, MerkleNode"]}
{"id": "C33", "title": "A merkle root binds the whole list of leaves", "statement": "If two lists of leaves have the same merkle root they are equal in length, order and content, unless two different byte strings hashed meanwhile have the same SHA256 - for leaves whose serialization is never that of a MerkleNode, such as mpc::Leaf.", "quantifier": "every pair of leaf lists, every hash function", "why_tests_cant": "Security reduction over all lists, including lists of different lengths and non powers of two.", "anchors": ["commit_verify/src/merkle.rs: merklize", "commit_verify/src/mpc/atoms.rs: Leaf"]}
{"id": "C34", "title": "Leaves and nodes are domain separated", "statement": "The bytes hashed for an mpc leaf never equal the bytes hashed for a MerkleNode, nor those for a MerkleConcealed; inhabited and entropy leaves never coincide, and each of these serializations is injective.", "quantifier": "every leaf, node and concealed value", "why_tests_cant": "All values.", "anchors": ["commit_verify/src/mpc/atoms.rs: Leaf", "commit_verify/src/merkle.rs: MerkleNode, NodeBranching", "commit_verify/src/mpc/block.rs: MerkleConcealed"]}
{"id": "C35", "title": "Merklizing arbitrary leaf types is unambiguous", "statement": "merklize is binding for every leaf type with MerkleHash ids. (False of the code: with MerkleNode itself as leaf type a one-element list has the root of the list of its children.) Exactly: for leaf types with injective serialization two lists have one root only if they are equal or one of them is a single leaf serialized like the top node of the other (no collision among the strings hashed).", "quantifier": "every leaf type accepted by MerkleLeaves", "why_tests_cant": "Needs an adversarial leaf type.", "anchors": ["commit_verify/src/merkle.rs: merklize, MerkleNode, MerkleLeaves"]}
{"id": "C36", "title": "Tagged hashing separates commitment types", "statement": "A commit_id is SHA256(SHA256(tag) || SHA256(tag) || data); the hashed strings of two commitments coincide only if the tag hashes and the data coincide, so that values of different commitment types never share an id without a SHA256 collision between tags or between messages.", "quantifier": "every tag and every data string", "why_tests_cant": "All strings.", "anchors": ["commit_verify/src/digest.rs: from_tag, finish", "commit_verify/src/id.rs: CommitEngine::new, CommitId"]}
{"id": "C37", "title": "Length-prefixed hashing is unambiguous", "statement": "input_with_len::<MAX> followed by any further data is uniquely parseable for data of at most MAX bytes; for longer data the prefix is silently truncated (below the 24-bit class) and two different inputs feed the hasher the same bytes; MAX above 2^32-1 always panics.", "quantifier": "every MAX, all data", "why_tests_cant": "Boundaries at 2^8, 2^16, 2^24, 2^32 and all contents.", "anchors": ["commit_verify/src/digest.rs: input_with_len"]}
{"id": "C38", "title": "Serialization round-trips", "statement": "Strict decoding of the strict encoding of a MerkleProof, MerkleBlock, MerkleTree, MerkleConcealed, MerkleNode, Leaf or id returns the value and the unread rest of the input.", "quantifier": "every value and every trailing input", "why_tests_cant": "All values.", "anchors": ["commit_verify/src/mpc/block.rs: TreeNode, MerkleBlock, MerkleProof, MerkleConcealed", "commit_verify/src/mpc/tree.rs: MerkleTree", "commit_verify/src/mpc/atoms.rs: Leaf, MultiSource", "stl/CommitVerify@0.1.0.sty"]}
{"id": "C39", "title": "Serialization is canonical", "statement": "If decoding a byte string yields a value, the consumed bytes are exactly the encoding of that value: there is one encoding per value and proofs and blocks cannot be mauled by re-encoding.", "quantifier": "every byte string", "why_tests_cant": "All byte strings.", "anchors": ["commit_verify/src/mpc/block.rs: TreeNode, MerkleBlock, MerkleProof", "commit_verify/src/mpc/atoms.rs: Leaf", "commit_verify/src/mpc/tree.rs: MerkleTree"]}
{"id": "C40", "title": "The commitment engine hashes what its layout says", "statement": "After any sequence of commit_to_* calls the engine has hashed the tag prefix and the encodings of the committed values in call order, and the layout lists exactly one step per call in the same order; the 256th call panics.", "quantifier": "every sequence of commit calls", "why_tests_cant": "Histories of unbounded length.", "anchors": ["commit_verify/src/id.rs: CommitEngine"]}
{"id": "C41", "title": "Engine commitments are binding for equal layouts", "statement": "Two sequences of commit calls with the same layout of value types feed equal bytes to the hasher only if the committed values are pairwise equal (for self-delimiting encodings); with differing layouts equal bytes are possible.", "quantifier": "every two call sequences", "why_tests_cant": "Concatenations of encodings of any length.", "anchors": ["commit_verify/src/id.rs: CommitEngine::commit_to_serialized, commit_to_linear_list"]}
{"id": "C42", "title": "Derived conceal strategy commits to the concealed form", "statement": "For every type deriving CommitEncode with strategy conceal, values with equal concealed form have equal ids, and the id is that of the concealed form's strict commitment under the same tag when concealing is idempotent; strict and transparent strategies commit to the serialization; merklize commits to the merkle root.", "quantifier": "every type and value", "why_tests_cant": "Generic over types.", "anchors": ["commit_verify/derive/src/derive.rs: derive_encode", "commit_verify/src/id.rs: commit_to_concealed"]}
{"id": "C43", "title": "commit-verify accepts exactly the commitment of the message", "statement": "CommitVerify::verify returns Ok exactly if committing to the message gives this commitment; TryCommitVerify::verify likewise, with InvalidMessage exactly if committing fails.", "quantifier": "every commitment function, message and commitment", "why_tests_cant": "Generic over implementations.", "anchors": ["commit_verify/src/commit.rs: CommitVerify, TryCommitVerify"]}
{"id": "C44", "title": "embed-commit-verify is complete and sound", "statement": "EmbedCommitVerify::verify accepts exactly if the proof restores an original container and re-embedding the message into it succeeds and reproduces both the proof and this container (up to VerifyEq); in particular it accepts whatever embed_commit produced whenever the proof restores the original; each error is returned exactly in its case; ProofMismatch never.", "quantifier": "every container, message, proof, implementation", "why_tests_cant": "Generic over implementations.", "anchors": ["commit_verify/src/embed.rs: EmbedCommitVerify::verify, EmbedVerifyError"]}
{"id": "C45", "title": "convolve-commit-verify is complete and sound", "statement": "ConvolveCommitProof::verify accepts exactly if convolving the restored original with the supplement and the message succeeds and reproduces the proof and the commitment; each error is returned exactly in its case.", "quantifier": "every implementation, message, proof, commitment", "why_tests_cant": "Generic over implementations.", "anchors": ["commit_verify/src/convolve.rs: ConvolveCommitProof::verify"]}
{"id": "C46", "title": "Seal closing is verified completely", "statement": "verify_seals_closing returns Ok exactly if every seal is included in the witness for the message and the client-side witness yields a proof that the published witness verifies; NotIncluded names the first seal not included and takes precedence over Client, which takes precedence over Published; the verdict does not depend on order or repetition of the seals; verify_seal_closing is the one-seal case.", "quantifier": "every seal type, witness, list of seals, message", "why_tests_cant": "All lists of seals.", "anchors": ["single_use_seals/src/lib.rs: SealWitness::verify_seals_closing, verify_seal_closing, SealError"]}
{"id": "C47", "title": "A secure seal closes over one message only", "statement": "If the published witness accepts at most one proof and the client-side witness maps different messages to different proofs, no witness verifies closing of seals over two different messages; with NoWitness this is exactly the uniqueness of the message accepted by the published witness. For an empty list of seals acceptance does not involve any seal.", "quantifier": "every seal type, witness, pair of messages", "why_tests_cant": "Generic over implementations; security property from the crate documentation.", "anchors": ["single_use_seals/src/lib.rs: SealWitness, NoWitness, ClientSideWitness, PublishedWitness"]}
{"id": "C48", "title": "Validity is decided by failures first, then seal issues", "statement": "validity() is Invalid iff there is a failure, SealIssues iff there is none but there is a seal issue, Valid iff there is neither; warnings and info never matter; adding entries or merging reports never turns a worse verdict into a better one, and merging gives the worse verdict of the two.", "quantifier": "every status and every sequence of additions", "why_tests_cant": "All histories of additions.", "anchors": ["src/api.rs: Status::validity, add_assign, add_failure, add_seal_issue"]}
{"id": "C49", "title": "Reports are merged without loss", "statement": "+= appends the four logs component-wise, in order, is associative with the empty status as unit; from_failure and from_iter make a status with exactly these failures.", "quantifier": "all statuses", "why_tests_cant": "Algebraic law.", "anchors": ["src/api.rs: Status::add_assign, new, from_failure, from_iter"]}
{"id": "C50", "title": "Client-side validation checks every item and every seal to the end", "statement": "client_side_validate calls the resolver exactly once for each seal of each item, in order, threading the resolver's state, never stops early, and returns the own report followed by, for each item, its seal issues and its report; it is Valid exactly if all reports are valid and every seal of every item was resolved.", "quantifier": "every data hierarchy and every stateful resolver", "why_tests_cant": "Arbitrary stateful resolvers and histories.", "anchors": ["src/api.rs: client_side_validate"]}
{"id": "C51", "title": "Client-side validation resolves all seals of the data", "statement": "A Valid verdict implies that every single-use-seal of the data, including those of the top-level item, was resolved. (False of the code: seals of the top-level data itself are never passed to the resolver, only those of the items; true if the top-level seals also occur in items.)", "quantifier": "every data hierarchy and resolver", "why_tests_cant": "Requires the absence of calls on every execution.", "anchors": ["src/api.rs: client_side_validate, ClientData::single_use_seals"]}
{"id": "C52", "title": "The order on Validity is severity", "statement": "Comparing Validity values orders them by severity, so that max of two verdicts is the verdict of the merged report. (False of the code: the derived order follows the discriminants Invalid=0 < Valid=1 < SealIssues=255.)", "quantifier": "every pair of statuses", "why_tests_cant": "Order laws over all pairs of reports; no test compares verdicts.", "anchors": ["src/api.rs: Validity"]}
{"id": "C53", "title": "Reserved bytes accept only the reserved value", "statement": "Decoding ReservedBytes<LEN, VAL> succeeds exactly if the next LEN bytes are all VAL, returns the default, and encoding gives these bytes back; converting from an array panics exactly for any other value; all values of the type are equal and have one commitment id; with serde every value is written as a unit and read back, units and absent values are read as the default and anything else is rejected.", "quantifier": "every LEN, VAL and input", "why_tests_cant": "All inputs.", "anchors": ["commit_verify/src/lib.rs: ReservedBytes, strict_decode, From<[u8; LEN]>"]}
{"id": "C54", "title": "The vesper layout describes the commitment", "statement": "to_vesper lists one entry per committed field in order, with the predicate of its kind, its size bounds for collections and key/value types for maps; different kinds of steps never get the same predicate. The printed form determines the layout up to library names. The words used are those of the grammar: the head has the hasher and the tag, each field the name of its kind.", "quantifier": "every layout", "why_tests_cant": "All layouts.", "anchors": ["commit_verify/src/vesper.rs: to_vesper, CommitStep::predicate, content, attributes"]}
{"id": "C55", "title": "Block invariants survive any history of operations", "statement": "Starting from the block of a committed tree or of valid proofs for it, after any sequence of conceal_except, conceal_other, merge_reveal_path, merge_reveal with blocks of such histories - failing calls included - the block has the tree's commitment, method, depth and cofactor, reveals only messages of the source, each at its slot, and no operation panics (no SHA256 collision among the strings hashed).", "quantifier": "every committed tree and every finite sequence of operations", "why_tests_cant": "Unbounded histories.", "anchors": ["commit_verify/src/mpc/block.rs: MerkleBlock"]}
{"id": "C56", "title": "Two build profiles agree", "statement": "On trees and structurally valid blocks, debug builds (overflow checks and debug assertions) and release builds compute the same results, and no debug assertion can fail: for conceal_except, conceal, commit_id, verification of proofs, merge_reveal and merge_reveal_path (no SHA256 collision among the strings hashed), and for the extraction of the proof of a protocol that the block reveals once. (For a protocol revealed twice, which only a block from elsewhere can do, the debug assertion on the number of path hashes fails while a release build returns a useless proof.)", "quantifier": "every tree, structurally valid block and operation", "why_tests_cant": "All inputs under both profiles.", "anchors": ["commit_verify/src/mpc/block.rs: conceal_except, into_merkle_proof, conceal", "commit_verify/src/mpc/tree.rs: root"]}
{"id": "C57", "title": "Concealed parts matter only through their hashes", "statement": "Two blocks that agree outside the hidden parts and whose hidden subtrees have equal hashes have the same commitment and the same proofs; a proof for one protocol is determined by that protocol's slot, the cofactor and the sibling hashes alone.", "quantifier": "every pair of trees agreeing on sibling hashes", "why_tests_cant": "Non-interference over all pairs of trees.", "anchors": ["commit_verify/src/mpc/block.rs: conceal_except, into_merkle_proof"]}
{"id": "C58", "title": "Default and strict-dumb values are well behaved", "statement": "MultiSource::default with static entropy and no messages commits to a tree of depth 3 with 8 entropy leaves; the StrictDumb block (depth 1, one hidden node of depth 0) has a commitment.", "quantifier": "every entropy", "why_tests_cant": "All entropies.", "anchors": ["commit_verify/src/mpc/atoms.rs: MultiSource::default, MPC_MINIMAL_DEPTH", "commit_verify/src/mpc/block.rs: StrictDumb for MerkleBlock"]}
{"id": "C59", "title": "What a published layout does not determine", "statement": "commit_to_option leaves the same layout entry as commit_to_serialized of the same type; two commitment types with equal tag and equal published layout can therefore give the same id to different data (a plain field holding the one-byte blob [0] and an optional field holding the empty blob). Nor does the id determine the layout: a list and a set of the same elements, and a map whose entries serialize like the elements, have one id under one tag, with three different layouts.", "quantifier": "every tag; every type for the equality of layout entries", "why_tests_cant": "It is a statement about what a published layout does not determine; a test compares one layout with one id.", "anchors": ["commit_verify/src/id.rs: commit_to_option, commit_to_serialized"]}
{"id": "C60", "title": "A tree's commitment binds its contents", "statement": "Two multi-protocol trees (received ones included) with one commitment id have the same depth, cofactor and the same protocol and message in every slot, and the same entropy if any slot is empty; two trees made by try_commit with one commitment come from equal message maps. Otherwise two different strings among those hashed for the two trees have one hash. The copy of the messages a tree stores besides its slots is not bound: trees differing only there have one commitment.", "quantifier": "all pairs of trees, all message maps, entropies and hash functions", "why_tests_cant": "It ranges over all pairs of trees; a test can only compare commitments of a few.", "anchors": ["commit_verify/src/mpc/tree.rs: MerkleTree, CommitEncode for MerkleTree, try_commit", "commit_verify/src/merkle.rs: merklize"]}
{"id": "C61", "title": "Whatever the operations return can be serialized and reads back", "statement": "A block made from a tree, rebuilt from a proof or received, after any history of conceal, merge and failed operations on it, stays within the size bounds of its type, so it strictly serializes and reads back as itself; the same holds for every proof extracted from it.", "quantifier": "all trees, proofs, received blocks and finite histories of operations", "why_tests_cant": "Histories are unbounded; the bound could be broken only after a particular history.", "anchors": ["commit_verify/src/mpc/block.rs: MerkleBlock, conceal_except, merge_reveal, to_merkle_proof, with"]}
{"id": "C62", "title": "The published layout of a type is the layout of its values", "statement": "The layout published for a committed type, which is read off one value of the type, is the layout with which every value of that type is committed, for all derived strategies, for types which commit to a fixed sequence of fields and for the committed types of this library (whose layouts are given exactly). It names the id type and has the tag with which values are hashed; none is published (the program panics) exactly if the id type has no name or the value it is read off cannot be committed to. A hand-written encoding which chooses its fields by the value is not described by the layout it publishes.", "quantifier": "all values of all such types, every commitment id type, all hash functions", "why_tests_cant": "A test compares the layout with the encoding of a few values; the claim is about all values of a type.", "anchors": ["commit_verify/src/id.rs: CommitmentLayout, CommitEngine", "commit_verify/src/conceal.rs", "commit_verify/src/mpc/tree.rs, block.rs, atoms.rs", "commit_verify/src/merkle.rs"]}
{"id": "C63", "title": "A received block with the commitment of a committed tree is a block of that tree", "statement": "Whatever block is received, if its commitment id is that of a committed tree then its beginning is exactly a partially concealed view of that tree; in a debug build nothing follows it, so the block shows only committed messages at their slots, shows no protocol twice and yields the proofs the tree yields - or two different strings among those hashed have one hash. In a release build the nodes following the view are arbitrary.", "quantifier": "all trees, all blocks (decoded ones included), both build profiles, all hash functions", "why_tests_cant": "It ranges over every block that can be received.", "anchors": ["commit_verify/src/mpc/block.rs: MerkleBlock, conceal_except, CommitEncode, MerkleTree"]}
{"id": "C64", "title": "Merging received blocks never panics and never corrupts a block", "statement": "merge_reveal of any received block into a block of a committed tree returns: an error if the commitments differ, otherwise a block of the same tree showing the union of the messages; so a user may apply whatever is received in any order. False of the code: a decoded block with hidden nodes one level deeper than the tree has a commitment, and merging it with itself panics in both profiles. In a release build, for every tree there is a decodable block of 111 bytes with its commitment whose merge into any block of the tree panics; and for every committed tree of depth at least 3 and any protocol and message there is a decodable block with the commitment of the tree whose merge succeeds and makes the block show that message: the asserted sum of node widths wraps modulo 2^32. A successful merge corrupts nothing in any profile as long as the two blocks have at most 2^(32 - depth) nodes together: the result shows exactly the committed messages in the tree parts of the two, even if leaves had been appended to one of them. The full claim does hold in debug builds for blocks of committed trees, for all histories. Unless SHA256 collides, in a debug build merging two blocks returns exactly if both have a commitment and these differ or both blocks are structurally valid, i.e. no node is below the leaves; merging a proof returns exactly if the proof is rejected, or block and proof have a commitment and these differ or the block is structurally valid. In a release build merging a received block into a block of a committed tree returns exactly if the received block has a commitment, and this is another one, or the nodes following the tree in it, without the first of them, cover a multiple of 2^32 leaves and still leave the block a commitment when appended (and the result has fewer than 2^32 nodes).", "quantifier": "all trees, all received blocks that have a commitment, all finite histories of operations", "why_tests_cant": "It ranges over all received blocks and all histories.", "anchors": ["commit_verify/src/mpc/block.rs: merge_reveal, conceal_except"]}
{"id": "C65", "title": "Tagged hashers of every kind separate tags and length-prefixed fields", "statement": "Whatever hash function implements the digest extension (SHA256, RIPEMD160 or any other of fixed output size), a hasher created from a tag gives the hash of twice the hash of the tag followed by all data fed, however cut into pieces; equal digests under two tags mean equal tags and data, and equal sequences of length-prefixed fields, unless the hash function collides on the strings hashed; feeding fields within their limits never panics.", "quantifier": "all fixed-size hash functions, all tags, all sequences of data and of fields with limits below 2^32", "why_tests_cant": "Ranges over all hash functions and all ways to cut data.", "anchors": ["commit_verify/src/digest.rs: DigestExt, Sha256, Ripemd160"]}
{"id": "C66", "title": "Concealed blocks and proofs are small", "statement": "A block concealed to k of its protocols has at most k*depth+1 nodes and 43+k(34*depth+31) bytes however many protocols were committed to: one node when nothing is revealed, exactly depth+1 nodes when one protocol is. A merkle proof takes exactly 8+32*depth bytes.", "quantifier": "all valid blocks, all protocol lists, all proofs", "why_tests_cant": "A size bound over all blocks and all choices of revealed protocols.", "anchors": ["commit_verify/src/mpc/block.rs: conceal_except, MerkleProof"]}
{"id": "C67", "title": "Seals closed over multi-protocol commitments cannot be closed twice", "statement": "Let the client-side witness of single-use seals be a merkle proof and let closing be verified through it. Closings accepted against one published witness that accepts at most one commitment are, for one protocol, closings over one message with one proof, whatever proofs are presented, unless a hash collision is exhibited. If the published witness accepts exactly the commitment to a source, included seals can be closed over the messages of the source and over nothing else; and whatever partially concealed block the committer kept, the proofs it gives close the seals.", "quantifier": "all seal types, published witnesses, sources, client-side proofs of at most 31 hashes, histories of concealing and merging", "why_tests_cant": "It quantifies over all proofs an adversary may present and over all implementations of the seal traits.", "anchors": ["single_use_seals/src/lib.rs: SealWitness::verify_seals_closing", "commit_verify/src/mpc/block.rs: MerkleProof::convolve", "commit_verify/src/mpc/tree.rs: try_commit"]}
{"id": "C68", "title": "Data exchanged and hashed have the published format", "statement": "Every type of the published CommitVerify type library (leaf, node, concealed tree, block, proof, tree, method, ids) as serialized by the library is the serialization prescribed by the type definitions for the corresponding value, decoding accepts exactly the byte strings which the type definitions give to some value and returns that value, and what is hashed for leaves, nodes and commitments is the published serialization. One divergence is proved: the published type of reserved bytes admits any bytes, the code accepts only the reserved value.", "quantifier": "all values of all exchanged types, all byte strings", "why_tests_cant": "Round-trip tests pass whatever the format is as long as both directions agree; agreement with a published description ranges over all values and strings.", "anchors": ["stl/CommitVerify@0.1.0.sty", "commit_verify/src/mpc/block.rs", "commit_verify/src/mpc/tree.rs", "commit_verify/src/mpc/atoms.rs", "commit_verify/src/merkle.rs"]}
{"id": "C69", "title": "Another implementation of the published procedure obtains the same commitments", "statement": "A procedure written down from the published types and tags, SHA256 and arithmetic on numbers only (attempt order, slots, leaves, nodes, commitment; and climbing a proof) gives for every set of messages, minimal depth and entropy the commitment of the library, and fails exactly where the library fails; it accepts a proof exactly if the library does, with the same commitment; so it verifies all proofs made by the library against the commitment it computes itself and accepts no other messages, barring a hash collision; and its merkle root of any list of hashes is that of the library, none where the library panics.", "quantifier": "all sources with entropy, all proofs of at most 32 hashes, all protocols and messages", "why_tests_cant": "Equality of two programs on all inputs.", "anchors": ["commit_verify/src/mpc/tree.rs: try_commit, MerkleTree::root", "commit_verify/src/mpc/block.rs: MerkleProof::convolve", "commit_verify/src/merkle.rs", "stl/Merkle.vesper"]}
{"id": "C70", "title": "The messages of a block can be collected into a map", "statement": "For a block of a committed tree, however concealed and merged, the map of known messages has exactly the messages the block shows; for the block made from a committed source it is the map of the source, and sources filled in any order have one map. For any other block the map has for each revealed protocol the message of its last leaf, and taking the map panics exactly if more than 2^24-1 different protocols are revealed; such a block can be received, with all leaves in their places and proofs that verify.", "quantifier": "all blocks, all committed trees and sources, all orders of insertion", "why_tests_cant": "Ranges over all blocks; the panic needs 2^24 leaves.", "anchors": ["commit_verify/src/mpc/block.rs: MerkleBlock::to_known_message_map"]}
{"id": "C71", "title": "A proof has one serialization which anybody accepts", "statement": "For a commitment and a protocol there is at most one byte string that deserializes to a verifying proof, and at most one message it proves. For a committed source there is exactly one for each of its messages, of 8 + 32 * depth bytes; every holder of a block of the source that still shows the message extracts exactly these bytes, whatever was concealed and merged before; and no bytes at all are accepted for a protocol outside the source. All this unless two different strings hashed by committer and verifier have one hash.", "quantifier": "all sources, all byte strings, all protocols, messages and commitments, all histories of a block", "why_tests_cant": "Ranges over all byte strings an adversary may send, including those that differ from the honest ones in single bits.", "anchors": ["commit_verify/src/mpc/block.rs: MerkleProof, MerkleBlock::to_merkle_proof", "commit_verify/src/mpc/tree.rs: try_commit"]}
{"id": "C72", "title": "A merge never changes the commitment of a block nor adds what neither operand had", "statement": "Whatever two blocks are merged, also malformed ones, and whatever the hash function: if the call returns, the block has its old header and commitment, and each of its nodes was a node of one of the two. If the call was successful the two commitments were equal, the number returned is that of the nodes (modulo 2^16), and the nodes cover as many leaves as the tree has (modulo 2^32 in release builds; exactly, with no node deeper than the leaves, in debug builds). If the call reports an error the commitments were different, the error names them, and the block is unchanged. Of nodes that follow a complete tree in one of the two blocks the first is dropped and the others are taken; so a single appended node disappears by merging with a block of the tree.", "quantifier": "all pairs of blocks, malformed ones included, all hash functions, both build profiles", "why_tests_cant": "Ranges over all malformed blocks a peer may send and does not assume that hashes differ.", "anchors": ["commit_verify/src/mpc/block.rs: MerkleBlock::merge_reveal"]}
{"id": "C73", "title": "A merge gives the union or panics, even if the hash function is broken", "statement": "For structurally valid blocks of one depth, whatever the hash function: a successful merge gives a structurally valid block that reveals in each slot exactly what one of the two reveals there, and the two did not contradict each other. Blocks with one commitment that reveal different leaves in one slot are never merged: the call panics in both build profiles.", "quantifier": "all pairs of structurally valid blocks of one depth, all hash functions, both build profiles", "why_tests_cant": "The interesting cases need collisions of SHA256.", "anchors": ["commit_verify/src/mpc/block.rs: MerkleBlock::merge_reveal"]}
{"id": "C74", "title": "Seal witnesses sent as bytes close a seal in one way only", "statement": "If published and client-side witnesses can be told from their encodings then so can seal witnesses: a decoder accepts exactly the encodings of witnesses and leaves what follows. With merkle proofs as client-side witnesses and a published witness accepting at most one commitment, at most one byte string carrying this published witness closes seals for a protocol, and over at most one message. If the published witness accepts exactly the commitment to a source then there is exactly one such byte string for each message of the source - the published witness followed by 8 + 32 * depth bytes - and none for other protocols. All this unless two different strings hashed by committer and verifier have one hash.", "quantifier": "all seal schemes whose client-side witness is a merkle proof, all exact codecs of published witnesses, all sources, byte strings, seals, protocols and messages", "why_tests_cant": "Ranges over all byte strings an adversary may send and over user-supplied implementations of the seal traits.", "anchors": ["single_use_seals/src/lib.rs: SealWitness, SealWitness::verify_seals_closing", "commit_verify/src/mpc/block.rs: MerkleProof"]}
{"id": "C75", "title": "Disclosures compose", "statement": "Two disclosures of one block - the block with all but some protocols concealed - always merge, into exactly the block, node by node, in which all but the protocols of both are concealed. Disclosures are equal exactly if they reveal the same protocols; one is obtained from another by concealing, and is absorbed by it when merged, exactly if it reveals no more. However many parties exchange disclosures of a committed tree - concealing further, serializing and reading back, extracting proofs, rebuilding blocks from proofs, merging blocks and proofs in any order - each block held is the one the committer would have made by disclosing these protocols at once, and no merge fails.", "quantifier": "all valid blocks and protocol lists; all committed trees and all finite exchanges between parties; all hash functions", "why_tests_cant": "Ranges over all trees, all subsets of protocols and all interleavings of operations by any number of parties.", "anchors": ["commit_verify/src/mpc/block.rs: MerkleBlock::conceal_except, conceal_other, merge_reveal, merge_reveal_path, to_merkle_proof, with"]}
{"id": "C76", "title": "Ids of nested data types bind to any depth", "statement": "Take any data type that commits to its fields one by one with the methods of the commitment engine, where a field may be serialized, optional, a collection, confidential, the id of another such type, or the merkle root of a list of another such type, to any depth. Absent collisions among the strings hashed, the commitment ids of two values are equal exactly if the values agree in all fields at all depths - confidential ones up to their concealed form. Without confidential fields equal ids mean equal values. Values which agree have equal ids (or panic alike) whatever the hash function, so that ids depend on confidential data only through its concealed form. (For records in merklized lists this needs that they do not serialize to the bytes of a merkle node, compare C35.)", "quantifier": "all declarations of nested record types, all their values, all tags, all hash functions", "why_tests_cant": "Ranges over all user-defined types, nested to any depth, and over all pairs of their values.", "anchors": ["commit_verify/src/id.rs: CommitEngine, CommitEncode, CommitId::commit_id", "commit_verify/src/merkle.rs: MerkleHash::merklize", "commit_verify/src/conceal.rs: Conceal"]}
{"id": "C77", "title": "The derive attribute selects what is committed", "statement": "#[derive(CommitEncode)] compiles exactly if the attribute names a commitment id type in scope and one of the strategies strict, conceal, transparent, merklize, the library is in scope at the path given by the crate argument, by default commit_verify, and the type has the traits of that strategy: id and strategy have no default, other names are refused. The implementation then commits, under the tag of the named id type, to the serialization of the value, of its concealed form, of its inner value, or to the merkle root of its leaves. The attributes of the types of the library give the implementations that all other properties are about.", "quantifier": "all types with any of the traits, all attribute arguments, all names", "why_tests_cant": "Ranges over all types and attribute values; compile failures cannot be unit-tested and a swapped strategy still compiles for most types.", "anchors": ["commit_verify/derive/src/params.rs: StrategyAttr::try_from, ContainerAttr::try_from", "commit_verify/derive/src/derive.rs: CommitDerive::derive_encode"]}
{"id": "C78", "title": "Errors of seal verification say what failed", "statement": "When closing of seals is rejected, the error has no source exactly if some seal is not included in the witness, and its text then names the first such seal and the publication id; otherwise the source is the error returned by the client-side witness, or by the published witness for the proof of the client-side one, and the text is the text of that error.", "quantifier": "every seal scheme, witness, list of seals, message", "why_tests_cant": "Ranges over all implementations of the seal traits.", "anchors": ["single_use_seals/src/lib.rs: SealError, Display and Error::source for SealError, SealWitness::verify_seals_closing"]}
{"id": "C79", "title": "Having a commitment is enough for concealing to work", "statement": "In both profiles conceal_except does not panic on any block whose commitment can be computed, however the block was obtained: it keeps the commitment, method, depth and cofactor, leaves exactly the requested messages revealed and succeeds exactly if all of them were revealed; in a debug build the block is structurally valid and minimal after success. In both profiles and for any block, also one without commitment, whenever conceal_except returns it has kept method, depth and cofactor, dropped the entropy, left exactly those requested messages revealed that were revealed before and lengthened nothing; and the block has a commitment afterwards exactly if it had that commitment before, so concealing never gives a commitment to a block that has none. Exactly what is left in a release build, if all messages to be kept are revealed: of a block that consists of a row of subtrees (see C29) the same row, with the other leaves hidden and hidden siblings joined within each subtree.", "quantifier": "every block value, every list of protocol ids, both profiles (structural validity after success: debug builds)", "why_tests_cant": "Ranges over all malformed blocks that can be received; the interesting ones have hidden nodes below the level of the leaves or, in release builds, nodes after the root.", "anchors": ["commit_verify/src/mpc/block.rs: MerkleBlock::conceal_except", "commit_verify/src/mpc/block.rs: Conceal for MerkleBlock"]}
{"id": "C80", "title": "Which proofs can be taken from a received block", "statement": "In a debug build, from a block whose commitment can be computed, to_merkle_proof gives a proof exactly for the protocols the block reveals once; it reports protocols which are not revealed, and panics for those revealed more than once. The proof has as many hashes as the block is deep and gives the commitment of the block if the leaf is at the slot of its protocol. into_known_proofs succeeds exactly if no protocol is revealed twice. In a release build nothing panics for such a block, and there is a proof exactly for the protocols revealed; for a block made of a complete tree the proof for a protocol revealed once is as in a debug build, and that for a protocol revealed more than once is too short and does not give the commitment of the block with any message (unless two different strings hashed have one hash). With nodes after the root a release build gives wrong proofs: for every proof that verifies and every hash there is a received block with the same commitment, revealing this message only and at its slot, whose proof has the given hash for the first of its path, and so does not verify with any message (unless hashes collide). Exactly which proof a release build takes from a block that consists of a row of subtrees: after hiding the other messages its path has, for each depth at which there is a hidden node, the hash of the last of them.", "quantifier": "every block value that has a commitment, both profiles; every protocol id; every proof that verifies and every other hash for the wrong proofs", "why_tests_cant": "Ranges over all received blocks, in particular ones revealing a protocol several times.", "anchors": ["commit_verify/src/mpc/block.rs: MerkleBlock::into_merkle_proof, to_merkle_proof, into_known_proofs"]}
{"id": "C81", "title": "What is concealed is hidden from whoever does not guess it", "statement": "Take two sources of one hashing method whose trees have the same depth and cofactor and which give the same messages to the disclosed protocols, but otherwise have any messages, in any number, and any entropy. An observer given the commitment, the block concealed up to the disclosed protocols and the proofs for these protocols cannot tell which of the two was committed to, whatever they compute, as long as they do not ask for the hash of a leaf that is hidden in one of the two trees and not in the other: under a hash function that differs from the given one only by exchanging strings of such leaves, the other source gives exactly the same data. The exception is needed: a proof contains the hash of the leaf next to the disclosed one, so a guess of that leaf (a message with its protocol, or the entropy) is confirmed with one hash.", "quantifier": "every pair of sources and trees of one shape, every set of disclosed protocols, every hash function, every observer that adaptively asks for hashes", "why_tests_cant": "A statement about what no computation can find out, over all observers and all pairs of sources.", "anchors": ["commit_verify/src/mpc/block.rs: MerkleBlock::conceal_except, to_merkle_proof", "commit_verify/src/mpc/tree.rs: MerkleTree::try_commit, commit_id", "commit_verify/src/mpc/atoms.rs: Leaf"]}
{"id": "C82", "title": "Printed ids can be read back, and error texts say exactly which error it was", "statement": "Protocol ids, messages, commitments and hashes are printed as 64 hexadecimal digits; reading accepts exactly the printed text of a value, with digits in either case, and gives that value back. The text of an error (LeafNotKnown, InvalidProof, MergeError, the errors of try_commit and of the three verification procedures) and of a validity determines the value: which case it is, the protocol id, positions, width, roots and numbers in it.", "quantifier": "every 32-byte value, every string, every pair of errors", "why_tests_cant": "Quantifies over all strings and all pairs of errors; ambiguities arise only for particular digits next to each other.", "anchors": ["commit_verify/src/mpc/atoms.rs: ProtocolId, Message, Commitment", "commit_verify/src/mpc/block.rs: LeafNotKnown, InvalidProof, MergeError", "commit_verify/src/mpc/tree.rs: Error", "commit_verify/src/embed.rs: EmbedVerifyError", "src/api.rs: Display for Validity"]}
{"id": "C83", "title": "Whatever a debug build returns, a release build returns", "statement": "For any data, well formed or not, if an operation returns in a debug build (does not panic), the same operation returns the same result in a release build: all commit calls of the engine and sequences of them, commitment ids, layouts and merkle roots, all operations on trees, blocks and proofs, and whole histories of operations on one block. So testing with debug builds can only find more panics, never other results, and a release build panics only where a debug build does. The converse fails: a release build returns where debug assertions or overflow checks would have stopped. The blocks that have a commitment in release builds while a debug build panics are exactly those consisting of a tree and at least one further subtree.", "quantifier": "every engine state, every sequence of commit calls whose user-supplied encodings do not themselves distinguish the profiles (the derived and the library ones do not), every tree, block, proof, list of protocols and history", "why_tests_cant": "A test runs in one profile on chosen data; the claim compares two builds on all data, including malformed blocks that overflow arithmetic.", "anchors": ["commit_verify/src/id.rs: CommitEngine", "commit_verify/src/mpc/block.rs: MerkleBlock, MerkleProof", "commit_verify/src/mpc/tree.rs: MerkleTree"]}
{"id": "C84", "title": "Which strings are hashed, and how many", "statement": "Computing the commitment or root of a tree, the commitment of a block, verifying a proof, concealing a block, extracting a proof from it, merging two blocks, merklizing a list, and computing the id of a record with nested records depend on the hash function only through its values at the two tags and at an explicit finite list of strings: at most 2^(depth+1) for a tree, at most two per node for a block, the length of the path plus two for a proof, at most three per leaf for a list. Any other hash function with the same values there gives the same result, the same error or the same panic (for merging, provided that no two of the strings hashed for the two commitments collide; for records, provided that their confidential fields have the same concealed form and that the two functions also agree on the tags of the id types). These lists are the ones of which all binding properties assume that no two strings in them collide.", "quantifier": "all trees, blocks made of a complete tree (in debug builds all blocks with a commitment), proofs, leaf types and lists, declarations of nested records and their properly serialized values; all pairs of hash functions", "why_tests_cant": "A test runs with one hash function; that nothing else is hashed is a statement about all pairs of hash functions.", "anchors": ["commit_verify/src/mpc/tree.rs: MerkleTree::root, conceal", "commit_verify/src/mpc/block.rs: conceal_except, conceal, to_merkle_proof, merge_reveal, MerkleProof::convolve", "commit_verify/src/merkle.rs: MerkleHash::merklize", "commit_verify/src/id.rs: CommitEngine"]}
{"id": "C85", "title": "Concealing, merging and committing take a bounded number of rounds", "statement": "conceal_except goes over the nodes of a block at most 32 times, for every block, also a malformed one received from somebody, and in both build profiles; at most depth + 1 times if the block is made of a complete tree, and exactly once more than the height of the tallest part to be hidden if all requested protocols are revealed, so that depth + 1 is reached whenever the block of a tree is concealed completely. The loop of merge_reveal runs at most as often as the shorter of the two blocks has nodes. try_commit tries the pairs of an explicit list of at most 11544 pairs of depth and cofactor in order and takes the first that separates the protocols.", "quantifier": "all blocks (well-formed or not), lists of protocols, pairs of blocks, sources, hash functions and build profiles", "why_tests_cant": "A bound on the running time for hostile input is a statement about all blocks; tests measure a few honest ones.", "anchors": ["commit_verify/src/mpc/block.rs: conceal_except, merge_reveal", "commit_verify/src/mpc/tree.rs: try_commit"]}
{"id": "C86", "title": "One protocol per slot, and proofs of absence", "statement": "Two proofs for one slot that verify to one commitment are equal and are for one protocol and one message; so a verified proof for one protocol excludes proofs for every other protocol with that slot. More generally, a block with a given commitment, however obtained, that shows at the slot of a protocol a message of another protocol, or the hash of the entropy leaf that fills unused slots, excludes any verifying proof for that protocol with any message, and if the commitment is that of a committed tree the tree has no message for it - unless two different strings hashed have one hash. Conversely the block made from a committed source, with the entropy it carries, shows this of exactly the protocols for which the source has no message.", "quantifier": "every pair of proofs, protocols and messages; every block value with a commitment (received ones included, both build profiles); every source; every hash function", "why_tests_cant": "Absence is a statement about all proofs that anybody may construct.", "anchors": ["commit_verify/src/mpc/block.rs: MerkleProof::convolve, MerkleBlock, From<&MerkleTree> for MerkleBlock, protocol_id_pos", "commit_verify/src/mpc/atoms.rs: Leaf::entropy", "commit_verify/src/mpc/tree.rs: try_commit"]}
{"id": "C87", "title": "Most sets of protocols fit, into a small tree", "statement": "If the protocol ids of a source differ modulo 2^d (d from the minimal depth to 31) then try_commit succeeds with a depth of at most d. Exactly (2^(256-d))^n * 2^d (2^d - 1) ... (2^d - n + 1) of the 2^(256 n) lists of n ids have that property, so all but a share of n (n - 1) / 2^(d+1) of them are committed to with depth at most d, whatever the messages, the entropy, the method and the minimal depth up to d. In numbers: more than 99.9% of all lists of 1000 ids can be committed to, and more than 99% of all lists of 100 ids give a depth of at most 19.", "quantifier": "every number of protocols, every depth up to 31, all lists of that many 32-byte ids (counted exactly), every source with these ids", "why_tests_cant": "A share of all 2^(256 n) lists of ids cannot be measured; sampling gives an estimate, and says nothing about the ids it did not draw.", "anchors": ["commit_verify/src/mpc/tree.rs: try_commit", "commit_verify/src/mpc/tree.rs: protocol_id_pos"]}
{"id": "C88", "title": "Histories of a contract cannot be forked and can be reconciled", "statement": "Let the transitions of a contract be records of any type whose ids are the messages of a protocol in multi-protocol commitments, closing seals through merkle proofs against published witnesses that accept at most one commitment each. Then any two transitions accepted by anybody which close a common seal agree in all fields at any depth (confidential ones up to their concealed form) and have the same proof. If transitions define at most one seal, two histories valid from one seal are the same as far as both go. In general, if no two different transitions define one seal, two valid histories can be continued, each with transitions of the other, to valid histories after which the same seals can be closed. All this unless two different strings hashed in the validation have one hash. A transition whose id is committed to for the protocol, with the commitment published for the seals it closes, is accepted.", "quantifier": "all seal schemes with merkle proofs as client-side witnesses, all ledgers, all record types nested to any depth, all histories and all proofs anybody may present, all hash functions", "why_tests_cant": "It is about all histories that all parties together may construct, and needs the libraries for seals, multi-protocol commitments and commitment ids at once.", "anchors": ["single_use_seals/src/lib.rs: SealWitness::verify_seals_closing", "commit_verify/src/mpc/block.rs: MerkleProof::convolve", "commit_verify/src/mpc/tree.rs: try_commit", "commit_verify/src/id.rs: CommitId::commit_id", "commit_verify/src/merkle.rs: MerkleHash::merklize"]}
{"id": "C89", "title": "How rarely a commitment can be opened in two ways", "statement": "If hashes are random, whoever asks for n hashes - choosing each string with all answers so far in mind - finds two different strings with one hash for at most a share of n (n - 1) / 2^257 of all sequences of answers; for n up to 2^64 that is less than one in 2^128. For all other sequences, and any hash function that gives these answers, no two different messages or proofs for one protocol verify to one commitment and no two different transitions of a contract close one seal, if the strings hashed in the verification are among those asked for.", "quantifier": "every adaptive way of asking for hashes, every number of questions, all sequences of answers (counted exactly), all proofs, messages and contracts", "why_tests_cant": "It quantifies over all algorithms and counts among 2^(256 n) sequences of answers.", "anchors": ["commit_verify/src/mpc/block.rs: MerkleProof::convolve", "commit_verify/src/id.rs: CommitEngine", "single_use_seals/src/lib.rs: SealWitness::verify_seals_closing"]}
{"id": "C90", "title": "A hidden message or entropy can only be guessed", "statement": "Let the commitment, the disclosed block and the disclosed proofs be given. For each of the 2^64 values of the entropy there is a world - a tree with this entropy and a hash function that gives the unused slots the hashes seen - in which exactly this is disclosed. An observer who asks for q hashes names the entropy in at most q + 1 of these worlds, and answers differently from someone without any knowledge of it in at most q of them; trying q values meets the bound. The same holds for the 2^256 values of one hidden message, even if its protocol, all other messages and the entropy are known.", "quantifier": "all hash functions, all trees, all sets of disclosed protocols, all observers that ask for hashes adaptively, all sets of worlds", "why_tests_cant": "It quantifies over all algorithms of the observer and over 2^64 or 2^256 worlds.", "anchors": ["commit_verify/src/mpc/block.rs: MerkleBlock::conceal_except, MerkleBlock::to_merkle_proof", "commit_verify/src/mpc/atoms.rs: Leaf", "commit_verify/src/mpc/tree.rs: MerkleTree::entropy"]}
{"id": "C91", "title": "Fewer protocols never need a deeper tree, and messages do not matter", "statement": "If try_commit succeeds for a source, it succeeds for any source with the same minimal depth and some of its protocols (unless that source is empty and the minimal depth is 0), whatever the messages, method and entropy. The tree is then not deeper, and if it is as deep, the cofactor is not larger. Two sources with the same protocols and minimal depth have the same depth, cofactor and slots.", "quantifier": "all pairs of sources with included sets of protocols, all messages, methods and entropies", "why_tests_cant": "It compares the outcome of two searches over all subsets of all sets of protocols.", "anchors": ["commit_verify/src/mpc/tree.rs: TryCommitVerify for MerkleTree::try_commit"]}
{"id": "C92", "title": "The minimal depth is only a lower bound", "statement": "Raising the minimal depth of a source never turns a success of try_commit into a failure; lowering it keeps a success and never gives a deeper tree; raising it to at most the depth of the tree does not change the tree. (False: at the minimal depth itself only cofactors 0 and 1 are tried, so the first part fails, and so does the last one exactly if the new minimal depth is the depth of the tree and its cofactor exceeds 1.)", "quantifier": "all sources, all pairs of minimal depths", "why_tests_cant": "Two protocols that fit with minimal depth 3 and not with 31 have to be constructed; random ids never show it. The positive parts range over all sources.", "anchors": ["commit_verify/src/mpc/tree.rs: TryCommitVerify for MerkleTree::try_commit", "commit_verify/src/mpc/atoms.rs: MultiSource::min_depth"]}
{"id": "C93", "title": "A few protocols never need a deep tree", "statement": "With a minimal depth of at most 3 (the default) two protocols always fit into a tree of depth 8, three into depth 10, four into 11, ten into 18, and so on up to 22 protocols, whatever the ids are and whoever chose them; so nobody can blow up the tree and the proofs of a few protocols by the choice of an id. Depth 8 for two protocols cannot be improved. In general a depth suffices if the least common multiple of the slot counts tried exceeds 2^256 to the power of the number of pairs.", "quantifier": "all sources with up to 22 protocols with arbitrary 256-bit ids, all messages and entropies", "why_tests_cant": "Random ids fit into shallow trees; the bound is about ids chosen by an adversary among 2^256 each.", "anchors": ["commit_verify/src/mpc/tree.rs: TryCommitVerify for MerkleTree::try_commit", "commit_verify/src/mpc/atoms.rs: MPC_MINIMAL_DEPTH"]}
{"id": "C94", "title": "Opening a commitment in two ways breaks the compression function of SHA-256", "statement": "With SHA-256 itself as the hash function: if two proofs for one protocol are accepted with the same commitment, they are the same and prove the same message, unless two different arguments among the at most 3(n1+n2+4) arguments with which the compression function is called in the two verifications have the same result. The same holds for the messages of two sources with the same commitment. In general, strings of less than 2^61 bytes have different hashes unless the compression function collides on the calls made for them.", "quantifier": "all proofs of any depth, protocols, messages; all sources; all strings shorter than 2^61 bytes", "why_tests_cant": "It is a reduction over all adversarial pairs of openings to a failure of the compression function.", "anchors": ["commit_verify/src/mpc/block.rs: ConvolveVerifyProof / MerkleProof::convolve", "commit_verify/src/mpc/tree.rs: MerkleTree::commit_id", "commit_verify/src/digest.rs: DigestExt for Sha256"]}
{"id": "C95", "title": "Commitments to sets and maps depend on their contents alone", "statement": "The merkle root of a set, and what commit_to_linear_set and commit_to_linear_map hash, do not depend on the order or the number of the insertions that made the collection: only the members count, for a map the value last inserted under each key. Conversely, collections with different contents give different hashed data, and sets with different members have different merkle roots unless hashes collide (for leaves not serialized like merkle nodes).", "quantifier": "all sequences of insertions of elements of any ordered type with a self-delimiting serialization; all states of the engine and all confinements", "why_tests_cant": "It quantifies over all sequences of insertions and all element types; the converse is injectivity.", "anchors": ["commit_verify/src/merkle.rs: MerkleLeaves for Confined<BTreeSet<T>>", "commit_verify/src/id.rs: CommitEngine::commit_to_linear_set", "commit_verify/src/id.rs: CommitEngine::commit_to_linear_map"]}
{"id": "C96", "title": "Ids as bytes, in order and as text agree", "statement": "copy_from_slice of the 32-byte ids accepts exactly the slices of 32 bytes and keeps them; one id is smaller than another exactly if its bytes come first in lexicographic order and exactly if its printed text does, so ordered maps, sorted texts and serialized maps list protocols in one order.", "quantifier": "all byte strings, all pairs of ids", "why_tests_cant": "Ranges over all byte strings and all pairs of 2^256 ids.", "anchors": ["commit_verify/src/mpc/atoms.rs: ProtocolId::copy_from_slice, Message::copy_from_slice, Commitment::copy_from_slice", "commit_verify/src/mpc/atoms.rs: MessageMap"]}
{"id": "C97", "title": "Trees from storage or from somebody else", "statement": "A deserialized MerkleTree is not checked: any protocol may sit in any slot. Still, against the commitment of any tree exactly those messages can be proven that sit in the slot of their protocol. into_proofs always returns in a release build, in a debug build exactly if no protocol sits in two slots; a proof it gives verifies exactly for a message in the slot of its protocol if the protocol sits nowhere else. A tree with the commitment of a committed source gives the proofs of that source and its block (up to the entropy if no slot is free). All this unless two different strings hashed have one hash. The stored copy of the messages is not protected: for each tree there is another with the same commitment, block and proofs and other messages in that copy.", "quantifier": "all trees that can be deserialized, all proofs, protocols and messages, both build profiles; all committed sources", "why_tests_cant": "Tests make trees by committing; the claim ranges over all byte strings that deserialize to a tree and all adversarial proofs.", "anchors": ["commit_verify/src/mpc/tree.rs: MerkleTree (StrictDecode), MerkleTree::into_proofs, MerkleTree::root", "commit_verify/src/mpc/block.rs: From<&MerkleTree> for MerkleBlock, MerkleBlock::into_known_proofs, MerkleProof::convolve"]}
{"id": "C98", "title": "Data that arrives in pieces", "statement": "Proofs, blocks, trees, concealed trees and ids can be read from a byte stream. A serialized value cut off at any byte is refused; the bytes that follow a value do not change how it is read, but a value followed by anything is refused as a whole message; input that was refused can become acceptable only by more bytes that belong to the value. A sequence of values written one after another is read as exactly this sequence, and whatever sequence is read was written so. What is read is in proportion to what was received: a proof with n hashes comes from 8 + 32 n bytes, a block from 9 (17 with entropy) bytes and 34 for each hidden and 65 for each revealed node, a tree from 18 + 64 (messages) + 68 (slots) bytes.", "quantifier": "all byte strings, all positions where they are cut off, all continuations, all sequences of values of any length", "why_tests_cant": "Fuzzing tries some truncations of some values; the claim is about every byte string and every cut.", "anchors": ["commit_verify/src/mpc/block.rs: MerkleBlock, MerkleProof (StrictDecode, StrictDeserialize)", "commit_verify/src/mpc/tree.rs: MerkleTree (StrictDecode, StrictDeserialize)", "commit_verify/src/mpc/block.rs: MerkleConcealed"]}
{"id": "C99", "title": "Received data cause work in proportion to their size", "statement": "Whoever receives a serialized proof, block or tree can compute its commitment, verify it, conceal it, extract a proof or merge it with another block by hashing no more strings than a small multiple of the number of bytes received, also if the data are malformed and whether the operation succeeds, fails or panics. (False for trees: 18 bytes deserialize to a tree of depth 31 whose commitment cannot be computed without the hashes of 2^31 strings.)", "quantifier": "all byte strings, everything that deserializes from them, all hash functions, both build profiles; for the lower bound all ways to compute the same commitment", "why_tests_cant": "A test measures the work for inputs somebody thought of; the bound is about every input an adversary may send, and the lower bound about every possible implementation.", "anchors": ["commit_verify/src/mpc/block.rs: conceal_except, merge_reveal, commit_id, MerkleProof::convolve", "commit_verify/src/mpc/tree.rs: MerkleTree (StrictDecode), root, conceal"]}
{"id": "C100", "title": "What changes when one message changes", "statement": "If a source is committed to again with the message of one protocol replaced (same entropy and minimal depth), this succeeds with the same depth, cofactor and slots. The proof of that protocol stays the same, and convolved with any other message it gives the commitment that the source would have with this message. The proof of every other protocol changes in exactly one hash, the one at the level where the ways to the two slots part; its new value can be computed with the published procedure from the new message and the proof of the protocol whose message was replaced. Unless SHA256 collides the commitment changes and a proof not brought up to date no longer verifies to it.", "quantifier": "all sources that can be committed to, all replaced protocols and messages, all other protocols", "why_tests_cant": "Ranges over all trees, messages and pairs of slots.", "anchors": ["commit_verify/src/mpc/tree.rs: MerkleTree::try_commit", "commit_verify/src/mpc/block.rs: MerkleBlock::to_merkle_proof, MerkleProof::convolve_commit"]}
{"id": "C101", "title": "Protocols joining and leaving; keeping a proof up to date", "statement": "A protocol can be added to a committed source (same entropy and minimal depth) so that the tree keeps its depth and cofactor exactly if its slot is not taken; otherwise the tree moves to a later attempt (depth, cofactor) and, unless SHA256 collides, no proof from before verifies to the new commitment. When a protocol joins or leaves and the tree keeps its depth and cofactor, the proof of every other protocol changes in exactly one hash, which can be computed with the published procedure: from the newcomer's proof, identifier and message, or from the last proof of the protocol that left and the entropy. So whoever keeps a proof can keep it up to date through any number of such changes - messages replaced, protocols joining and leaving, in any order; it always equals the proof that the latest tree gives, and verifies to the latest commitment. Unless SHA256 collides every such change changes the commitment, a proof not brought up to date no longer verifies to it, and no proof verifies a message of a protocol that left to the new commitment.", "quantifier": "all sources that can be committed to, all protocols that join or leave, all other protocols, all finite histories of changes that keep the shape of the tree", "why_tests_cant": "Ranges over all trees, pairs of slots and histories of any length.", "anchors": ["commit_verify/src/mpc/tree.rs: MerkleTree::try_commit", "commit_verify/src/mpc/block.rs: MerkleBlock::to_merkle_proof, MerkleProof::convolve_commit"]}
{"id": "C102", "title": "What the repository's tests check on random messages, for all messages", "statement": "The assertions that the tests of multi-protocol commitments make about trees of a few random messages hold for all messages: a committed tree has every message, the protocols have different slots, the number of messages is at most the factored width, so nine messages need a depth above 3; a tree and its block conceal to the same value and have the same commitment; the commitment of a tree differs from its root (unless SHA256 collides); the commitment of a block does not depend on its entropy field, and the block of a tree has the entropy of the tree; one message with no minimal depth makes a tree of depth 0 with cofactor 0 whose root is the hash of the one leaf and whose block has just that leaf; the proofs of all messages, merged in any order, give a block with the commitment of the tree that reveals all messages. Two of the assertions hold only for most random messages, and it is said exactly when: replacing the entropy of a tree changes its commitment (unless SHA256 collides) if there are fewer messages than slots, and never if the messages fill all slots; the factored width can equal the number of messages, also for nine.", "quantifier": "all sources that can be committed to, all entropies, all blocks, all orders in which the proofs are merged", "why_tests_cant": "The tests draw up to nine messages at random; the laws range over all sets of messages, and one of the assertions fails on inputs too rare to be drawn.", "anchors": ["commit_verify/src/mpc/tree.rs: tests tree_structure, tree_conceal, tree_id, tree_id_entropy", "commit_verify/src/mpc/block.rs: tests entropy, single_leaf_tree, determin_tree, sparse_tree, merge_reveal", "commit_verify/src/mpc/tree.rs: MerkleTree", "commit_verify/src/mpc/block.rs: MerkleBlock"]}
{"id": "C103", "title": "Commitments inside commitments", "statement": "The commitment of a tree may itself be a message of a protocol in another tree, to any number of levels. Let a message be verified from the inside out with one proof per level, the commitment found at each level being the message at the next. Then (unless SHA256 collides) two verifications along the same protocols that lead to one outermost commitment have the same message and the same proofs at all levels; if one goes deeper than the other, what it finds where the other ends is the other's message. The proofs taken from the committed trees verify through all levels, and nothing else verifies to the outermost commitment along these protocols. If the innermost message is replaced and all levels are committed to again with the same entropies, every proof stays as it is, and the proofs lead from the new message to the new outermost commitment, which differs from the old one unless SHA256 collides.", "quantifier": "all numbers of levels, all sources at each level, all protocols, messages and proofs anybody may present", "why_tests_cant": "Ranges over all depths of nesting and all proofs.", "anchors": ["commit_verify/src/mpc/tree.rs: MerkleTree::try_commit", "commit_verify/src/mpc/block.rs: MerkleBlock::to_merkle_proof, MerkleProof::convolve"]}
{"id": "C104", "title": "Merkle blocks as client-side witnesses that can be merged", "statement": "Let the client-side witness of single-use seals be a merkle block, let closing over a message of a protocol be verified by taking the proof of the protocol from the block and verifying it, and let merge be merge_reveal. Closings accepted against one published witness that accepts at most one commitment are, for one protocol, closings over one message, whatever blocks are presented. If the published witness accepts exactly the commitment to a source, no block closes seals over anything but a message of the source, and after any history of concealing and merging with blocks and proofs of others (failing calls included) the witness of the committer closes included seals over exactly the messages which were not concealed or were merged again. All this unless two different strings hashed have one hash. Two witnesses of one committed tree always merge, in either order, into a witness for exactly what one of them is a witness for, whatever the hash function. Verifying the proof is necessary: a scheme which accepts whatever message a block reveals can be made to close seals over two messages of one protocol.", "quantifier": "all seal types, published witnesses, sources, received blocks, histories of concealing and merging, protocols and messages", "why_tests_cant": "Ranges over all blocks somebody may present and over all histories of merges.", "anchors": ["single_use_seals/src/lib.rs: ClientSideWitness::merge, SealWitness::verify_seals_closing", "commit_verify/src/mpc/block.rs: MerkleBlock::merge_reveal, MerkleBlock::to_merkle_proof, MerkleProof::convolve"]}
{"id": "C105", "title": "Validation can be split, reordered, cached and repeated", "statement": "Validating data in two parts with one resolver and merging the reports is validating all at once. If what the resolver answers does not depend on what it was asked before - whatever state it keeps - then the report is that of a function from seals to answers: the verdict is Invalid exactly if some report has a failure and Valid exactly if no report has a failure or a seal issue and each seal of each item is closed; reordering items, or moving seals between items, only reorders the logs and keeps the verdict; a cache before the resolver changes nothing in the report, and with it each seal is asked about exactly once; validating again after more seals were closed keeps the other logs and never gives more seal issues or a worse verdict; and if issues carry the seal asked about, exactly the seals of items which are not closed are named, in order. For a resolver with memory order and caches do matter (a witness is given).", "quantifier": "all data hierarchies, resolvers with arbitrary state, pairs of resolvers at different times", "why_tests_cant": "Users reorder data, cache answers of the medium and retry; that this is harmless is a statement about all resolvers and all data, and the condition under which it holds cannot be found by examples.", "anchors": ["src/api.rs: ClientSideValidate::client_side_validate, SealResolver::resolve_trust, Status"]}
{"id": "C106", "title": "What passing the generic test suites for commitment schemes means, and who always passes", "statement": "A run of the embed-commit test suite passes on a list of messages and a container exactly if every message can be embedded, is verified with its commitment and proof and is the only message of the list that is, and commitments at different positions differ and an earlier one is not verified with a later message and its proof; the convolve-commit suite likewise. No list with a repeated message passes. The embed suite passes on all lists without repetition exactly if these hold for all messages and all pairs of different messages; it suffices that the scheme compares by equality, embeds different messages into different containers and restores the container from its proofs. The embed scheme of the tests passes exactly the lists without repetition whose messages fit into 65535 bytes, the convolve scheme of the tests exactly those without repetition on which SHA256 does not collide; the latter commits to nothing of its container, which the suites cannot see.", "quantifier": "all embed and convolve schemes, all lists of messages, all containers, supplements and proofs; for the schemes of the tests all byte strings (under 2^32 bytes for the convolve scheme) and all hash functions", "why_tests_cant": "The suites are run on ten messages and one container; what a pass says of the scheme in general, and that the test schemes pass on every other sample, is about all lists of messages.", "anchors": ["commit_verify/src/embed.rs: test_helpers::embed_commit_verify_suite, test_helpers::convolve_commit_verify_suite, test::DummyVec, test::DummyProof"]}
{"id": "C107", "title": "Multi-protocol commitments inside containers: what both layers prove together", "statement": "An embed-commit scheme that compares by equality accepts at most one message for one container and one proof exactly if embedding two different messages into the container which the proof restores never gives the same container and proof; a convolve-commit scheme likewise; with a coarser comparison that is not enough. If the commitment to a multi-protocol source is embedded with a scheme whose proof restores the container, every message of the source can be shown by a merkle proof together with the container and its proof, also with proofs taken from concealed and merged blocks of the tree. If the scheme is binding, one container with one proof shows at most one message of a protocol, with one merkle proof, and nothing that is not in the source, unless hashes collide; seals published with such containers cannot be closed over two messages. The embedding proof must be fixed with the container: with two proofs one container of a binding scheme may show two messages.", "quantifier": "all embed and convolve schemes over commitments, all containers, proofs, merkle proofs, sources, entropies, protocols, messages, histories of block operations, seal schemes and hash functions", "why_tests_cant": "The crates never combine the two layers in tests, and the guarantees are about all schemes, containers and proofs.", "anchors": ["commit_verify/src/embed.rs: EmbedCommitVerify::verify, EmbedCommitVerify::embed_commit, EmbedCommitProof::restore_original_container, VerifyEq", "commit_verify/src/convolve.rs: ConvolveCommitProof::verify, ConvolveCommit::convolve_commit", "commit_verify/src/mpc/proof.rs: MerkleProof::convolve", "single_use_seals/src/lib.rs: SealWitness::verify_seals_closing"]}
{"id": "C108", "title": "Parties who exchange blocks and proofs of one commitment know exactly what they were sent, keep secrets within a group, and converge", "statement": "Let any number of parties hold merkle blocks of one multi-protocol commitment, and let them, in any order and any number of times, send each other whole blocks, copies with everything but chosen protocols concealed, or single messages with their proofs, which the receiver merges; and let them in between conceal parts of their own blocks and merge blocks and proofs received from anybody else (valid blocks or paths, short of a hash collision). Then no call panics; every party's block keeps the commitment and remains a partial view of the committed tree; the messages a party knows are exactly those it had and those that a sender knew at the time of sending and included, minus what it concealed itself; and it can prove each of them against the commitment. A message known only within a group stays there as long as no exchange carries it out. When blocks are only shared, two parties reached by the same blocks - directly or through others, in any order, with any repetitions, even in different runs - hold equal nodes, and know the union of what the reaching blocks' first holders knew.", "quantifier": "all trees, all numbers of parties and initial blocks of the tree, all finite sequences of exchanges, all groups and messages, all hash functions (for what comes from elsewhere: valid blocks or paths without collision)", "why_tests_cant": "The interleavings of exchanges between arbitrarily many parties with arbitrary partial views are unbounded, and confidentiality and convergence are statements about all of them", "anchors": ["commit_verify/src/mpc/block.rs: MerkleBlock::merge_reveal, MerkleBlock::merge_reveal_path, MerkleBlock::conceal_except, MerkleBlock::to_merkle_proof"]}
{"id": "C109", "title": "Blocks and proofs may be delayed, reordered, repeated and lost on the way", "statement": "Let parties hold merkle blocks of one multi-protocol commitment and send each other blocks, disclosed copies or messages with proofs over a network that delivers packets at any later time, in any order, any number of times or never, while the parties go on concealing and merging. Then no call panics, every block keeps the commitment and remains a partial view of the committed tree, and a party knows exactly what it had (less what it concealed) and what the packets that reached it told: what their senders knew when the packets were made and included. It can prove all of it. A message which is addressed only to members of a group stays in the group however packets are delivered. If whole blocks are sent, two parties reached by the same initial blocks, by whatever packets and through whomever, hold equal nodes and know the union. Immediate delivery gives the network of C108.", "quantifier": "all trees, numbers of parties, initial blocks of the tree, all finite sequences of sending, delivery and own operations, all groups and messages, all hash functions (for what comes from elsewhere: valid blocks or paths without collision)", "why_tests_cant": "Orders, delays and repetitions of deliveries between arbitrarily many parties are unbounded.", "anchors": ["commit_verify/src/mpc/block.rs: MerkleBlock::merge_reveal, MerkleBlock::merge_reveal_path, MerkleBlock::conceal_except, MerkleBlock::to_merkle_proof"]}
{"id": "C110", "title": "A store of blocks by commitment keeps commitments apart and collects exactly what arrived", "statement": "Let a user keep one merkle block per commitment and, for every block or message-with-proof that arrives, either store it (when nothing is stored for its commitment) or merge it into the stored block. If everything that arrives for a commitment belongs to one tree with that commitment, no call panics or fails; there is a block for exactly the commitments for which something arrived, it has that commitment, is a partial view of that tree, knows exactly the messages that arrived for it, and each can be proven against the commitment; the order and repetition of arrivals do not change the nodes stored. Whatever arrives, malformed data included: unless a call panics, an arrival changes nothing stored under other commitments, a stored block keeps the commitment under which it is stored, each of its nodes came with something of that commitment, and the only errors are those of proofs for a wrong position, which change nothing.", "quantifier": "all finite sequences of arrivals, all assignments of trees to commitments, all stores, all hash functions", "why_tests_cant": "The sequences of arrivals, numbers of commitments and partial views are unbounded, and malformed arrivals cannot be enumerated.", "anchors": ["commit_verify/src/mpc/block.rs: MerkleBlock::with, MerkleBlock::merge_reveal, MerkleBlock::commit_id, MerkleBlock::to_merkle_proof"]}
{"id": "C111", "title": "No block reveals the same protocols with fewer nodes or bytes than conceal_except", "statement": "Let a block of a committed tree be concealed to some protocols. Every other block of the tree which reveals these protocols - obtained by whatever operations, or received with the same commitment and structurally valid (unless two different strings hashed have one hash) - has at least as many nodes and a serialization that is at least as long, of the same length only if it is the same block. It gives the concealed block when concealed to these protocols, and merging the concealed block into it changes nothing. The number of nodes is exactly one more than the number of inner nodes of the tree above the slots of these protocols.", "quantifier": "all committed trees, their blocks, lists of protocols, all other blocks with the commitment, all hash functions", "why_tests_cant": "Minimality is a statement about all other blocks with the same commitment, which cannot be enumerated.", "anchors": ["commit_verify/src/mpc/block.rs: MerkleBlock::conceal_except, MerkleBlock::merge_reveal, MerkleBlock::commit_id"]}
{"id": "C112", "title": "A message cannot be chosen after its commitment was published", "statement": "Someone who computes q hashes, publishes a 32-byte value as a commitment and computes k more hashes cannot, except with a probability of at most k(3q+1)/2^256 over random hashes, present a proof verifying to that value, or a block having it as its commitment id, unless every string hashed on that verification - the message with its protocol id among them - was already hashed before the value was published. So, except with a probability of less than 2^-126 for up to 2^64 hashes, or of less than 2^-94 for up to 2^32 hashes before and 2^128 after the publication, the message and the proof that can be opened for a protocol are the same whatever the hashes computed after the publication turn out to be.", "quantifier": "all adaptive strategies for choosing strings to hash and the value to publish, all q and k, all tapes of random answers but the stated share, all proofs, protocols, messages and blocks", "why_tests_cant": "it is about every strategy of an adversary and counts over all random answers; a test hashes with one function and one strategy", "anchors": ["commit_verify/src/mpc/block.rs: MerkleProof::convolve, MerkleBlock::commit_id", "commit_verify/src/merkle.rs: MerkleHash::branches", "commit_verify/src/mpc/atoms.rs: Leaf, Commitment"]}
{"id": "C113", "title": "Nothing below a published hash can be chosen afterwards", "statement": "Someone computes q hashes of strings of at most B bytes, publishes 32 bytes - an id, a commitment, or what a seal is closed over - and computes k more hashes. Except with a probability of at most k(Bq+1)/2^256 over random hashes, every string that is linked to the published value by hashes was hashed before the publication. So were all contents of a record, of the records nested in it to any depth and of the lists merklized in it, if the id of the record is published or is a message proven against the published commitment; and the whole transition of a contract with its proof, if the seals it closes have witnesses that are good for the published commitment only. With 2^64 hashes of strings of up to 4 GiB the probability is less than 2^-95.", "quantifier": "all adaptive strategies for choosing strings to hash and the value to publish, all q, k and B, all tapes of random answers but the stated share; all chains of strings, record types, values, proofs, contracts and transitions", "why_tests_cant": "It is about every strategy of an adversary and counts over all random answers, for all types of data a user may declare.", "anchors": ["commit_verify/src/id.rs: CommitEngine, CommitEncode, CommitId::commit_id", "commit_verify/src/merkle.rs: MerkleHash::merklize", "commit_verify/src/mpc/block.rs: MerkleProof::convolve", "single_use_seals/src/lib.rs: SealWitness::verify_seals_closing"]}
{"id": "C114", "title": "Another opening of somebody's commitment is out of reach far beyond the birthday bound", "statement": "Suppose q hashes were computed, among them all those of a committed source, and its commitment id was published. Whoever then computes k more hashes, by any strategy, gets a proof which verifies to that commitment and differs from the proof the source itself gives for that protocol, or is for a message the source does not hold, or gets a block with that commitment id which does not show a part of the source's tree, only with a probability of at most (q(q-1)/2 + k(3q+1))/2^256 over random hashes. So with q up to 2^20 even 2^200 further hashes succeed with a probability below 2^-34, although 2^128 hashes suffice to find some collision.", "quantifier": "all adaptive strategies for choosing strings to hash and the value to publish, all q and k, all tapes of random answers but the stated share, all trees, proofs, protocols, messages and blocks", "why_tests_cant": "it counts over all random answers and all strategies; a test tries a few forgeries with one hash function", "anchors": ["commit_verify/src/mpc/block.rs: MerkleProof::convolve, MerkleBlock::commit_id", "commit_verify/src/mpc/tree.rs: MerkleTree::commit_id, MultiSource::try_commit", "commit_verify/src/merkle.rs: MerkleHash::branches"]}
{"id": "C115", "title": "Nothing can be referred to before it exists, and nothing refers to itself", "statement": "If hashes are random, then - for all publications and all hashed strings at once, except with a probability of at most (B+1)n(n+1)/2^257 for n hashes of strings of at most B bytes - every string that hangs below a published 32-byte value or below 32 consecutive bytes of a hashed string was hashed before that value was published or that string was hashed. So no commitment id, merkle proof or record refers to itself, directly or through others: a record does not contain its own id nor the commitment id in which its id is committed, anywhere in what is hashed for it; and whenever seals were closed over a commitment, all contents of the transition they are later accepted for had been hashed by that time, for the whole history of a contract at once.", "quantifier": "all adaptive strategies for choosing strings to hash and values to publish at any time, all n and B, all tapes of random answers but the stated share, all record types, records, proofs, protocols, messages, contracts and transitions", "why_tests_cant": "it counts over all random answers and all strategies, and is about all chains of references of any length", "anchors": ["commit_verify/src/id.rs: CommitId, CommitEncode", "commit_verify/src/mpc/block.rs: MerkleProof::convolve", "commit_verify/src/merkle.rs: MerkleHash::merklize", "single_use_seals/src/lib.rs: verify_seal_closing, verify_seals_closing"]}
{"id": "C116", "title": "What a published id or commitment stands for is decided when it is published", "statement": "Suppose somebody computed q hashes of strings of at most B bytes, published 32 bytes and computes k more hashes. If hashes are random, then except with a probability of at most (q(q-1)/2 + k(Bq+1))/2^256, no matter how the later hashes come out and what is done with them, records of one type whose commitment id is the published value agree in all their fields at any depth of nesting, in collections and in merklized lists, confidential fields up to their concealed form; records without confidential fields are one record. If the published value is a multi-protocol commitment, the same holds for the proof, the message and the record whose id is the message, for each protocol. So which transition of a contract closed some seals is decided when they are closed over a commitment: in whatever future a transition over them is accepted, it is the same one with the same proof. With up to 2^64 hashes of strings of up to 4 GiB the probability is below 2^-95.", "quantifier": "all adaptive strategies for choosing strings to hash and the value to publish, all q, k and B, all pairs of continuations after the publication but the stated share, all record types, pairs of records, proofs, protocols, messages, contracts and transitions", "why_tests_cant": "it compares different futures of the hash function, counts over all random answers and all strategies, and is about record types of any shape and depth", "anchors": ["commit_verify/src/id.rs: CommitId, CommitEncode, CommitEngine", "commit_verify/src/merkle.rs: MerkleHash::merklize", "commit_verify/src/mpc/block.rs: MerkleProof::convolve", "commit_verify/src/conceal.rs: Conceal", "single_use_seals/src/lib.rs: verify_seals_closing"]}
{"id": "C117", "title": "The past of a contract is settled, at all times at once", "statement": "Suppose n hashes of strings of at most B bytes are computed in all, and values are published, and seals closed over them, at any time in between. If hashes are random, then except with a probability of at most (B+2)n(n+1)/2^257, for every time and every two ways in which the hashes may come out after it: records with an id published by then agree in all fields at any depth; and if a seal was closed over a commitment published by then, the transitions which close this seal in any two histories valid in the two futures - with other later hashes, other witnesses for other seals, other seals to begin with - are one and the same, with one proof (up to the concealed form of confidential fields). With 2^64 hashes of strings of up to 4 GiB the probability is below 2^-96.", "quantifier": "all adaptive strategies for choosing strings to hash and values to publish at any time, all n and B, all times, all pairs of continuations but the stated share, all record types and records, contracts, seal schemes built on proofs, ledgers, histories of any length, seals and transitions", "why_tests_cant": "it compares all futures at all times, counts over all random answers and all strategies, and is about histories of any length", "anchors": ["commit_verify/src/id.rs: CommitId, CommitEncode", "commit_verify/src/mpc/block.rs: MerkleProof::convolve", "single_use_seals/src/lib.rs: verify_seals_closing"]}
{"id": "C118", "title": "Which protocols take part, and what blocks can show, is decided when a commitment is published", "statement": "Somebody computes q hashes, publishes a commitment id and computes k more hashes. If hashes are random, then except with a probability of at most ((q+k)(q+k-1)/2 + k(3q+1))/2^256: if in one way the later hashes may come out a block with this commitment id shows that a protocol is absent - its slot has the message of another protocol or is a filled free slot - then in no way they may come out can a message of this protocol be proven; and proofs for one slot, in any two futures, are one proof for one protocol and one message. Likewise a well-formed block in one future and any block in another, both with this commitment id, have one depth and cofactor, show the same wherever neither hides it, and what one hides has the hash of what the other shows. With up to 2^64 hashes the probability is below 2^-126.", "quantifier": "all adaptive strategies for choosing strings to hash and the value to publish, all q and k, all pairs of continuations after the publication but the stated share, all blocks, also malformed ones with a commitment id, all proofs, protocols, messages and entropies", "why_tests_cant": "it compares different futures of the hash function and counts over all random answers and all strategies", "anchors": ["commit_verify/src/mpc/block.rs: MerkleProof::convolve, MerkleBlock::commit_id, MerkleBlock::protocol_id_pos", "commit_verify/src/mpc/atoms.rs: Leaf::entropy"]}
