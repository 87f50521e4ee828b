# Formal model of `client_side_validation`

The Lean project in `lean/` models the client-side-validation foundation
libraries in `/repo` and proves the properties listed in `properties.jsonl`.

## How the model is built

* Everything is a total, computable Lean function on plain data. A method taking
  `&mut self` returns the new value next to its result, also when the result is an
  error, so that "what is left behind by a failing call" can be stated.
* Panics are values. `Exec α = Except Panic α`; arithmetic overflow, division by
  zero, index out of range, `expect`, `assert!`, `debug_assert!`, `unreachable!`
  and explicit `panic!` are all panics of the model. Loops carry fuel; running out of fuel is a
  separate panic `Panic.fuel`, and it is proved for every input that it never occurs.
* `class Env` collects what the program is parametrised by: the SHA256 function
  (an arbitrary function from byte lists to 32 bytes) and the build profile
  (`debug = true`: overflow checks and debug assertions on; `false`: wrapping
  arithmetic and debug assertions compiled out). All theorems hold for every `Env`
  unless a hypothesis says otherwise.
* Cryptographic claims never assume that the hash is injective - such a hypothesis is
  false of every function into 32 bytes and would make theorems vacuous. They are stated
  as reductions: "... unless two different byte strings *among those hashed by these
  two computations* have the same hash", with the list of hashed strings given
  explicitly by a function of the inputs. A concrete SHA256 implementation is in the
  model as well (`Sha256.lean`) and is used in the non-vacuity examples and to check
  the model against the test vectors of the repository.
* Bytes are `List UInt8`, 32-byte ids are lists with a length proof, `u5` is
  `Fin 32`, fixed-size integers in data types are `UInt8/16/32/64`, local `u32`
  variables are naturals with explicit checked/wrapping operations, `usize` is
  unbounded (collections are bounded by their confinement).
* `BTreeMap`/`BTreeSet` are association lists kept strictly ascending by key.

Files: `Verif/Prelude` (panics, arithmetic, bytes, maps), `Verif/Model` (the code,
function by function, each definition citing file and lines), `Verif/Spec` (small,
separate specifications used in the property statements), `Verif/Proofs` (lemmas),
`Verif/Props` (the property theorems with examples), `Verif/Cases` (theorems
applied to concrete data, where a section of `Verif/Props` has one example for
several theorems).

## Plan per property

| id | modelled | proof |
|----|----------|-------|
| C01-C03, C06-C08 | `MultiSource`, `try_commit`, `protocol_id_pos` | invariants of the attempt loop, induction on depth and cofactor |
| C04 | same | a set that never separates has, for every slot count m of the attempts at full cofactor range, a pair of ids congruent modulo m; so the product of all differences is a multiple of the lcm of those slot counts, which exceeds (2^256)^pairs; the lcm is computed by the kernel |
| C05 | same | id 0 together with products of eight slot counts; for every attempted slot count m some id is a multiple of m and shares slot 0 with id 0 |
| C09, C56 | `MerkleTree`, `From<&MerkleTree>`, `conceal`, `merklize` | complete tree of depth d as partial tree; loop = canonical form |
| C10-C15, C29 | `conceal_except` at index level | refinement index loop -> list pass -> step on partial trees; termination measure is the length. Release builds (C29): invariant "the stack holds the roots of a row of subtrees" of the stack machine of C79 |
| C16, C17, C19, C20, C22, C57 | `with`, `into_merkle_proof`, `convolve` | a concealed tree with one leaf is a path |
| C18, C21, C30, C33 | hashes of both computations | induction over both trees, decoding of the hashed strings |
| C23-C27, C55 | `merge_reveal`, `MerkleBuoy` | merge of flattened compatible partial trees = flattening of the join |
| C28 | `MerkleBuoy`, generic in the type of depths | induction over the subtree; converse: the levels are the roots of a forest with the given tips |
| C31 | `matches` | witnesses and equivalences; the halves of a tree have different roots, slot by slot |
| C32, C35 | `merklize` | recursion on width, depth bound by logarithm |
| C34, C36-C39, C53 | strict encodings, tagged hash, `input_with_len`, decoders | codecs with two laws: decode(encode x ++ s) = (x, s), and decode s = (x, r) implies s = encode x ++ r |
| C40-C42 | `CommitEngine`, derive strategies | induction over calls |
| C43-C45 | generic traits as records of functions | case analysis |
| C46, C47 | seal traits as records of functions | induction over the seal list |
| C48-C52 | `Status`, `client_side_validate` with stateful resolver | induction over items and seals |
| C54 | `CommitLayout::to_vesper` | case analysis, injectivity |
| C58 | defaults | evaluation of the model on symbolic entropy |
| C59 | `commit_to_option`, `commit_to_serialized` | runs of the engine computed, one witness |
| C60 | commitment of `MerkleTree` | equal roots of complete trees give equal slot hashes, by induction on depth |
| C61 | size bounds of `NonEmptyVec` | each operation keeps the bound; induction over histories; C39 for reading back |
| C62 | `CommitmentLayout`, derive strategies | the layout left by a sequence of engine calls depends on the kinds of calls only |
| C63 | commitment of received blocks | an equal root forces the view node by node; width bookkeeping excludes trailing nodes where it is checked |
| C64 | `merge_reveal` on received blocks | C63 reduces to merging of views (C23); witnesses for the failures; for both profiles the asserted sum of widths bounds what may follow the views; the loop lemma of C23 for trees that reach one level below the leaves gives the exact condition for returning; in release builds the row of subtrees (C29) decides whether the merged block has a commitment |
| C65 | `DigestExt` over any fixed-size hash function | induction over the fields fed, C37 for one field |
| C66 | encodings of blocks and proofs | induction over minimal partial trees (C12) |
| C67 | seal traits instantiated with merkle proofs as client-side witnesses | composition of C46, C18, C20, C21 and C55 |
| C68 | the published type library as a grammar of values (`Spec/TypeLib.lean`), all codecs | one law per type combinator, C39 |
| C69 | a self-contained procedure (`Spec/Reference.lean`) | first element of an ordered list of attempts (C02, C03), induction over height and over the path, C68 |
| C70 | `to_known_message_map` | the last entry wins in a map collected from a list; counting; a complete tree of depth 24 as witness of the panic |
| C71 | deserializing and verifying a proof (C38, `convolve`) | C18 and C21 give equality of proofs, canonicity (C39) equality of bytes; C55 for blocks after any history |
| C72 | `merge_reveal` on arbitrary blocks | induction over the main loop (nodes come from one of the lists) and over the sum of widths; the assertions at the end give the rest |
| C73 | `merge_reveal`; the hash function is arbitrary | induction over the two trees: the loop panics if they contradict each other, else gives the nodes of the union or too few of them, which the sum of widths detects |
| C74 | strict encoding of `SealWitness` (`Model/SealCodec.lean`) | exactness composes over fields; then C67, C71 and canonicity (C39) |
| C75 | `conceal_except`, `merge_reveal` and proofs; an inductive relation for what parties can hold | minimal views of a tree are determined by the slots they reveal (C12, C26); the join of minimal views is minimal; induction over exchanges |
| C76 | the commitment engine, used by a type of declarations of nested records | induction over the declaration: C41 for the fields, tagged hashing (C36) for nested ids, the merklization lemmas of C33 for lists |
| C77 | `params.rs` and the choice in `derive.rs` as functions of the attribute arguments and the traits of the type | case analysis; then C42 |
| C78 | `Display` and `Error::source` of `SealError` | from the characterization of errors (C46) |
| C79 | `settle` (Proofs) | the lemmas for C10 - C13 hold for trees with hidden nodes one level below the leaves; joins are undone as for C29. Release builds: the loop computes exactly what joining on a stack in one pass computes, which does not depend on whether leaves are hidden before or afterwards |
| C80 | - | in a minimal tree with two revealed leaves some depth has no hidden node, so the map of hashes is too short; with one leaf the tree is a path. Release builds: C79 for not panicking; a hidden node of depth 1 after the tree is not joined and overwrites the first hash of the path |
| C81 | observers that ask for hashes (`Spec/Hiding`) | the strings of hidden leaves of the two trees are exchanged slot by slot; they differ from all other strings hashed by content or length, so roots, concealed blocks and paths agree level by level |
| C82 | text forms (`Model/Text.lean`) | hexadecimal digits of a byte and back, induction over pairs of characters; numbers end at the first character which is not a digit |
| C83 | - | refinement of panicking computations: closed under `bind`, conditionals and maps; base cases are the debug assertions and checked operations; function by function, loops by induction; for commitments the exact difference by the rows of C29 |
| C84 | - | the strings hashed are those of the specification of each function (the same lists as in the hypotheses of the binding properties); a second hash function agreeing on them gives the same values, by induction on the tree or on the declaration of the nested record; counted by induction |
| C85 | - | the loops of the model take the number of rounds as a bound, so a loop stopped after n rounds is the model with another bound; on trees the number of rounds is the height of what is hidden, one level per round; on any block the nodes joined in one round are at least one level up from those of the round before (invariant over rounds) |
| C86 | - | equal commitments make the path of a proof compatible with the shown tree (C18, C63); what the tree shows at the slot is then compatible with the leaf of the proof; leaves and entropy leaves are hashed from different strings (C34) |
| C87 | `tryCommit` | all lists of ids are enumerated once each; a separated list of `n` ids can be extended by exactly `2^(256-d) (2^d - n)` ids; Bernoulli's inequality; first fit (C02, C03) |
| C88 | `verifySealsClosing`, `convolve`, `commitId` | contracts and their histories are specified in `Spec/Contract.lean`; one seal, one witness, one commitment, one message (C67), one record (C76); acceptance is confluent: two transitions agree or commute (diamond and strip lemma) |
| C89 | `Env` | SHA256 as a random oracle that takes answers from a tape (`Spec/Oracle.lean`); a tape without repetitions gives no collision, and tapes are counted as in C87; then C18, C88 |
| C90 | `MerkleBlock`, `MerkleTree`, `Env` | worlds: a hash function programmed at the strings of the hidden leaves (`Programmed`); all worlds look the same (`view_same`, shared with C81); a question of an observer tells one world from the others, so worlds are counted by pigeonhole |
| C91 | `MultiSource`, `MerkleTree::try_commit` | from the first-fit characterization (C02): a pair that separates a set separates its subsets |
| C92 | `MultiSource`, `MerkleTree::try_commit` | false; counterexample from C05 at minimal depth 31 (`C92_false`); lowering the depth (`C92_partial`) and raising it up to the depth of the tree (`C92_unchanged`, `C92_unchanged_iff`) from C02 |
| C93 | `MultiSource`, `MerkleTree::try_commit` | if no attempt fits, each number of slots divides the difference of some pair of ids, so their least common multiple divides the product of all differences; table by evaluation of the least common multiples in the kernel |
| C94 | the SHA256 of `Model/Sha256.lean` | Merkle-Damgaard: the last groups of words of two strings agree unless the compression function collides, hence the lengths, hence all groups from the back; then C18 and C60, whose hashed strings have at most 162 bytes |
| C95 | sets and maps as the fold of their insertions (`bsetOfList`, `bmapOfList`); the order of an element type is modelled as an embedding into the naturals (`OrdKey`) | the fold is sorted and has exactly the inserted members (last value per key), so it is determined by them; conversely C35 and the injectivity of the engine's encoders |
| C96 | `copy_from_slice` (`Model/Text.lean`), the order used by the maps of the model (big-endian numbers), lists of characters | induction on the bytes; the order of hexadecimal digits is a finite table |
| C97 | `MerkleTree` with an arbitrary slot map; `seated` lists the protocols by slot | the path to any slot of a complete tree has the root of the tree; a verifying proof is a view of the tree (C21 without the assumption on the slots); C80 for the proofs taken; C60 for trees with the commitment of a source |
| C98 | decoders of `Model/Codec.lean`; a reader of a stream decodes value after value until the input ends | from exactness of the decoders (C38, C39) by induction on the number of bytes left; lengths of encodings are computed |
| C99 | `Hashes`: somebody who sees the hash function only by asking for hashes obtains the outcome with the two tags and at most n questions (`Observer`, as in C90); counted along every model function of blocks, proofs and trees. It is a statement about the function computed: whether this code hashes a string again which it has hashed before is not expressed, since hashing has no effect in the model | Upper bounds by composing observers over binds and loops, for all blocks; bytes from the sizes of C66 and C39. Lower bound for trees: with the string of one leaf missing, a hash function with one fresh value elsewhere changes the commitment. False for trees, with an 18-byte witness |
| C100 | `try_commit`, `to_merkle_proof`, `MerkleProof::convolve_commit`; how to bring a proof up to date is written down in `Spec/Update.lean` from numbers, hashes and the published procedure of C69 | the shape is that of C91; a proof is the list of siblings (C57); trees that differ in one slot have the same siblings on the way to it, and on any other way all but one; induction on the depth |
| C101 | as C100; histories are the inductive relation `Changes` in `Spec/Update.lean` | room: the first attempt that succeeds is not later than the one of the old tree, since all slots differ there (C02), and not earlier by C91; one changed slot as in C100; induction on the history |
| C102 | nothing new | each assertion from the general theorems (C01, C02, C07, C09, C10, C11, C26, C60) with counting of slots; nine ids whose factored width is 9 as a witness that one assertion is too strong |
| C103 | nothing new; levels of sources are the inductive relation `Nests`, verification through levels is `climb`, both in `Spec/Nested.lean` | induction on the levels with C16 (completeness), C18 (binding) and C100 (own proof does not change) |
| C104 | nothing new; a seal scheme whose client-side witness is a merkle block is `SealScheme.UsesBlocks` | C46 with C18 and C21 for presented blocks, C55 for histories, C17 and C23 for merges, C30 for the counterexample |
| C105 | nothing new; memory, caches and naming of seals are in `Spec/Resolve.lean` | C49 and C50; induction on items and seals with an invariant of the state of the resolver |
| C106 | The two suites as folds that panic at a failed assertion, over arbitrary schemes; the two schemes of the tests | One lemma on the fold shared by both suites by induction on the rest of the list; the test schemes by cancelling the common prefix of what is appended or hashed |
| C107 | The schemes of C44/C45 with commitments as messages, merkle proofs and seals as in C67 | Binding of a scheme unfolded to its required methods (iff); then C18, C21 and C55 for the lower layer, C67 for seals |
| C108 | A network (a block per party), events that run `merge_reveal`, `conceal_except`, `to_merkle_proof` and `merge_reveal_path` on it, and what the parties are meant to know after each event | Induction on events: each step keeps blocks of the tree and matches the intended knowledge (C23, C22, C12, C16); confinement by induction on the knowledge; convergence with the trees shown: each absorbs exactly the initial trees that reached it, so two of them absorb each other and are equal |
| C109 | As C108 with a list of packets made so far, each with its addressee; delivery of any packet at any time | A relation between states and intended knowledge, kept by every action; trees of parties and packets are least upper bounds of the initial trees of their pasts, hence equal for equal pasts; C108 by simulation |
| C110 | A map from commitments to blocks; arrivals are blocks or proofs with messages, stored or merged | The tree stored for a commitment is the least upper bound of the trees that arrived, kept by every arrival; for arbitrary data by the merge of arbitrary blocks (C72) |
| C111 | Partial trees with the same root; the number of nodes above a set of slots | Concealing a view hides leaves and joins hidden siblings, neither of which adds nodes; equality only if nothing is hidden or joined. The count by induction on the tree |
| C112 | Random hashes read from a tape as in C89; a value is published after `q` of `q + k` questions | A later answer must not hit one of the `3 q + 1` values fixed by then (what is published, hashes in strings asked for); the tapes with a hit are counted. Without one, the tree below the published value was hashed before, from the root down. With C84 and C89 the opening is the same for all continuations |
| C113 | As C112; a string hangs below a hash if it has the hash, or if its own hash is contained in a string that does | The fixed values are all 32 bytes in a row of the strings asked for. By induction along the chain; strings of records, merklized lists, blocks and proofs are seen to be such chains by induction on the record type and the trees |
| C114 | random hashes: trees whose strings were all asked for before the publication, adversaries asking afterwards | none of the later hashes counts (C112), the earlier ones have no collision (C89), then C21 and C63 |
| C115 | As C113, with a publication after every question | At every step the answer must not be among the 32 bytes in a row of the strings so far, of the string asked for, or what was ever published; the shares of bad tapes are added up by induction on the number of questions. What is fixed remains so, hence a string with a fixed hash was asked for by then; along chains by induction. A string on a cycle would have been asked for before its first time |
| C116 | As C113, with two tapes which agree up to the publication | All strings of both records were hashed by the publication (C113), where both futures agree; so the second record has the same calls, strings and id with the hash function of the first (induction on the record type), and C76 applies, as the early strings do not collide (C89). For proofs likewise with C18 |
| C117 | As C115, with two tapes which agree up to some time | Good tapes are in order (C115) and without collisions (C89); then as C116, at any time. Every transition of a valid history was accepted at some point, and all its seals have one witness |
| C118 | As C112, with two tapes which agree up to the publication | All strings of the proof were hashed by the publication (C112), so it verifies in the other future too; C86 applies there, as no strings collide (C89). Blocks likewise, by comparing the two trees from the root |

Properties whose claim is false of the code (C14, C20, C27, C30, C31, C35, C51, C52, C64, C92, C99)
are kept with their full statement in `properties.jsonl`; the negation is proved with a
concrete witness, and the part that does hold is proved as `..._partial`.

## Not modelled

* `Debug` formatting, `Display` of `Method` and `ReservedBytes` (constant texts), derived serde implementations.
* The generation of the type library and of the vesper files (`commit_verify/src/stl.rs`,
  `bin/commit-stl.rs`); the published files themselves are transcribed in `Spec/TypeLib.lean` (C68)
  and compared with the layouts of the code (C62).
* Memory exhaustion: trees of depth up to 31 are treated as if memory sufficed.
* The compression function of RIPEMD160 (a parameter, C65).
* Of the derive macro: tokens, argument classes and unknown arguments (dependency `amplify_syn`).
* The tests of `mpc/test.rs` and of the other files, except the two suites and schemes of `embed.rs` (C106) and the test vectors
  (`Props/Vectors.lean`).

## What was found in the code

Claims one would make about the code and that are false of it. All are proved, with witnesses.

* `conceal_except` with an unknown protocol returns an error after having concealed part of the block
  and dropped the entropy (C14).
* `MerkleProof::convolve` panics on a decodable proof of 32 hashes (C20).
* `merge_reveal` returns the number of nodes modulo 65536 (C27).
* A decoded block may show two messages for one protocol; in release builds any leaf may be appended to any
  block of more than one slot without changing its commitment (C30). The verification of one proof is not affected (C18, C21).
* `MerkleProof::matches` compares the cofactors and the first hashes of the paths; proofs of one tree
  may not match, and proofs of different trees may (C31).
* Merklizing a list of merkle nodes is ambiguous: a single node that is the parent of two others has the
  root of the list of the two (C35).
* Client-side validation never resolves the seals of the top-level object, only those of the items
  (C51), and the derived order of `Validity` is not severity (C52).
* Extracting the proof of a protocol that a block from elsewhere reveals twice fails a debug
  assertion; a release build returns a useless proof (C56).
* The copy of the messages that a tree stores besides its slots is not bound by the commitment (C60).
* `merge_reveal` with a received block whose hidden nodes are one level too deep panics in both
  profiles. In release builds a received block of three nodes with the commitment of the tree
  makes every merge with a block of the tree panic, and a larger one can plant any message: node
  widths are summed modulo 2^32 (C64).
* In release builds a received block that has the right commitment and reveals one message at its slot may
  give a proof of it with a hash chosen by the sender, which does not verify: a hidden node after the root
  overwrites the first hash of the path (C80).
* `to_known_message_map` panics on a block of 2^24 messages that is otherwise in order (C70).
* The published type of reserved bytes admits any bytes, the code reads only the reserved value (C68).
* `Merkle.vesper` gives tags 0 and 1 for the two kinds of leaves, the type library and the code use
  0x10 and 0x11; the comment in `tree.rs` on the maximal size of a serialized tree is one byte short.
* `commit_to_option` and `commit_to_serialized` leave the same entry in the layout though they hash
  different bytes (C59).
* Raising the minimal depth may turn a success of `try_commit` into `CantFitInMaxSlots`, since at the
  minimal depth only cofactors 0 and 1 are tried: two protocols fit with minimal depth 3 and not with
  31 (C92).
* Deserializing a tree accepts protocols in foreign or equal slots, slots outside the tree and any
  stored messages; taking the proofs of such a tree fails with an error or a debug assertion (C97).
* A serialized tree of 18 bytes makes its receiver hash 2^31 leaves, and allocate memory for them (C99).

## How the theorems were tested

`seeded/LOG.jsonl` has one line for each wrong variant of the model that was tried. Two things were
observed. *Refuted*: the statement of the theorem has an instance that evaluates to false in the
wrong model (instances of nearly all theorems are compiled against the changed model and run); so the
theorem cannot be proved there. *Broken*: the proof no longer checks, or depends on a lemma whose
proof no longer checks; this alone does not show that the statement is false. Where a claim is
false in a wrong model but no theorem for it was refuted, the statement was tightened (last field).

`difftest/` tests the model itself rather than the theorems. The Rust code cannot be run here, so its
multi-protocol part was written a second time, in Python and from the source, with mutable state, and
with hashing by Python's `hashlib`. `compare.py` feeds random operations to both (`Verif/Run.lean`
runs the model): well-formed and malformed blocks, proofs of up to 33 hashes, trees with foreign slots,
related and unrelated merges, damaged encodings, in both build profiles. About 860000 results were
compared, including the kinds of panics and the contents of blocks after errors; none differed. Both
renderings have one author, so a common misreading of the source is not excluded.

## Trusted base

* Lean's kernel and the standard axioms `propext`, `Classical.choice`, `Quot.sound`. No theorem
  depends on other axioms, on `sorry` or on compiled evaluation. Per theorem, as printed by
  `#print axioms`:

<!-- axioms -->
* none (7 theorems): C49_add_assign, C51_top_level_ignored, C52_false, C54_predicates, C65_sha256,
  C105_memory_matters, C106_container_unseen

* `propext` (19 theorems): C18_inputs, C28_zero, C32_nodes, C36_strings, C36_tags, C36_separated,
  C43_commit_verify, C48_validity, C49_monoid, C51_false, C53_decode, C53_array, C53_values,
  C53_serde, C54_entries, C54_words, C65_tagged, C65_separated, C96_bytes

* `propext`, `Quot.sound` (87 theorems): C06_position, C07_decoded, C07_decoded_proof,
  C08_static_entropy, C20_false, C24_unrelated, C28_any_surfaces, C28_any_exact, C28_any_level,
  C28_any_no_panic, C28_surfaces, C28_no_panic, C32_leaves, C34_separated, C36_tagged,
  C37_truncated, C37_class24, C37_too_large, C40_feeds, C40_returns, C40_finished, C40_layout_shown,
  C40_commit, C41_layouts, C42_strict, C42_transparent, C42_merklize, C42_conceal,
  C42_conceal_equal, C42_conceal_strict, C43_try_commit_verify, C46_seals_closing_ok,
  C46_seals_closing_errors, C46_seals_order, C46_seals_each, C47_one_message, C47_no_seals,
  C47_no_witness, C48_merge_worse, C48_monotone, C49_constructors, C50_validate, C50_each_seal_once,
  C50_logs, C52_partial, C52_order, C52_numbers, C53_id, C56_protocol_twice, C58_default,
  C58_default_rng, C59_option_layout, C59_same_step, C59_layout_not_hashed, C62_uniform,
  C62_derived, C62_fields, C62_published, C62_handwritten, C66_block_bytes, C68_reserved, C74_exact,
  C76_agree, C78_errors, C83_engine, C83_ids, C83_steady, C83_blocks, C83_trees, C83_histories,
  C83_one_way, C94_calls, C105_split, C105_memoryless, C105_order, C105_cache, C105_later,
  C105_named, C106_embed_suite, C106_embed_nodup, C106_embed_always, C106_convolve_suite,
  C106_convolve_nodup, C106_convolve_exact, C106_dummy_convolve, C107_coarse, C109_immediate

* `propext`, `Classical.choice`, `Quot.sound` (349 theorems): C01_slots, C01_leaves, C02_first_fit,
  C02_independent_of_rng, C03_no_panic, C03_panic_iff, C03_empty_iff, C03_cant_fit_iff,
  C03_never_too_many, C04_small_sets_fit, C04_numbers, C05_adversarial_sets,
  C05_two_at_maximal_depth, C07_factored_width, C07_derived, C08_random_entropy, C09_one_commitment,
  C09_values, C09_block, C10_conceal_keeps_commitment, C10_any_number_of_calls, C10_conceal_other,
  C11_reveals_exactly, C12_minimal, C12_set_of_ids, C12_idempotent, C12_stepwise, C12_canonical,
  C13_leaf_not_known, C13_ok_iff, C14_exact, C14_conceal_other, C14_false, C14_partial,
  C15_terminates_and_counts, C15_zero_iff, C16_committed_trees, C16_placed, C16_complete,
  C16_into_known_proofs, C16_into_proofs, C17_same_proof, C17_rebuilt, C18_binding,
  C19_position_checked, C20_partial, C21_only_committed, C21_all_committed, C21_source,
  C22_rebuilt_is_concealed, C23_union, C23_slots, C23_of_tree, C23_path, C24_unrelated_path,
  C24_wrong_position, C24_error_iff, C25_idempotent, C25_commutative, C25_associative,
  C26_all_proofs, C26_verified_proofs, C27_false, C27_partial, C28_flag, C29_debug,
  C29_both_profiles, C29_valid, C29_panics, C29_release, C30_false, C30_partial, C30_valid_blocks,
  C30_placed_blocks, C30_exact, C30_followed, C30_appended, C30_not_appended, C31_halves,
  C31_same_message, C31_false, C31_partial, C31_trees_and_blocks, C32_root, C32_limits, C33_binding,
  C34_injective, C35_false, C35_partial, C35_exact, C37_unambiguous, C38_round_trip,
  C38_block_serialized, C39_canonical, C39_unmaulable, C40_256, C41_bytes, C41_binding,
  C44_embed_verify_ok, C44_embed_verify_errors, C44_proof_mismatch_never, C44_embed_complete,
  C44_embed_sound, C45_convolve_verify_ok, C45_convolve_verify_errors, C45_convolve_complete,
  C45_convolve_sound, C48_history, C50_valid_iff, C51_partial, C54_determines, C54_libraries,
  C55_starts, C55_histories, C55_proofs_after_histories, C55_source, C56_conceal_except,
  C56_block_commitment, C56_to_merkle_proof, C56_verification, C56_merge_reveal,
  C56_merge_reveal_path, C56_trees, C56_into_proofs, C57_hidden_parts, C57_proof_content,
  C57_siblings_determine, C58_dumb_block, C60_binding, C60_sources, C60_determined, C61_bounds,
  C61_survives, C62_library, C63_received, C63_debug, C63_begins, C64_iff, C64_debug_iff,
  C64_path_iff, C64_false, C64_partial, C64_histories, C64_release_false, C64_moderate,
  C64_moderate_histories, C64_release_panics, C64_release_trailing, C64_release_iff, C64_source,
  C65_fields, C66_nodes, C66_bytes, C66_proof_bytes, C67_no_double_closing, C67_closable,
  C67_from_blocks, C68_agrees, C68_hashed, C68_exchanged, C69_commit, C69_verify, C69_merkle_root,
  C69_interoperable, C70_map, C70_of_tree, C70_source, C70_any_order, C70_panics, C71_at_most_one,
  C71_source, C72_any, C72_trailing, C73_union, C73_clash, C74_at_most_one, C74_source, C75_join,
  C75_order, C75_exchange, C76_binding, C76_plain, C76_types, C77_compiles, C77_refused,
  C77_commits, C77_library, C79_tree, C79_any, C79_iff, C79_conceals, C79_release, C80_proofs,
  C80_debug, C80_release, C80_release_wrong, C80_release_exact, C81_hiding, C81_sources, C81_guess,
  C82_reads, C82_round_trip, C82_errors, C83_commitments, C84_tree, C84_block, C84_debug, C84_proof,
  C84_conceal, C84_merge, C84_merklize, C84_record, C85_conceal_rounds, C85_conceal,
  C85_conceal_tight, C85_conceal_any, C85_merge, C85_commit, C86_slot, C86_absent, C86_complete,
  C86_received, C86_source, C87_depth, C87_all, C87_count, C87_most, C87_numbers,
  C88_no_double_spend, C88_no_fork, C88_reconcile, C88_accepted, C89_experiment, C89_no_collision,
  C89_numbers, C89_binding, C89_double_spend, C90_entropy, C90_message, C90_sharp, C91_fewer,
  C91_contents, C92_partial, C92_unchanged, C92_unchanged_iff, C92_false, C93_depth, C93_table,
  C93_sharp, C94_reduction, C94_openings, C94_sources, C95_merkle_set, C95_linear_set,
  C95_linear_map, C96_order, C97_provable, C97_into_proofs, C97_source, C97_unprotected, C98_framed,
  C98_bounded, C99_blocks, C99_block_bytes, C99_proof_bytes, C99_tree_hashes, C99_tree_distinct,
  C99_tree, C99_tree_work, C99_false, C99_partial, C100_own_proof, C100_other_proofs, C101_room,
  C101_moved, C101_joined, C101_left, C101_histories, C102_structure, C102_structure_tight,
  C102_conceal, C102_id, C102_entropy, C102_block_entropy, C102_single, C102_merge, C103_binding,
  C103_complete, C103_sound, C103_replace, C104_no_double_closing, C104_only_committed,
  C104_histories, C104_merge, C104_revealed_is_not_enough, C105_verdict, C105_cache_asks,
  C106_embed_sufficient, C106_dummy_embed, C107_embed_binding, C107_convolve_binding, C107_complete,
  C107_binding, C107_sound, C107_proof_needed, C107_seals, C107_convolve, C108_run, C108_confined,
  C108_converge, C108_union, C109_run, C109_confined, C109_converge, C109_union, C110_store,
  C110_order, C110_prove, C110_refused, C110_separate, C110_origin, C111_smallest, C111_received,
  C111_nodes, C112_known, C112_decided, C112_numbers, C112_long_after, C113_below, C113_contents,
  C113_contract, C113_numbers, C114_committed, C114_numbers, C115_in_order, C115_no_cycle,
  C115_contract, C115_numbers, C116_decided, C116_plain, C116_message, C116_contract, C116_numbers,
  C117_ids, C117_histories, C117_numbers, C118_absent, C118_blocks, C118_numbers
<!-- end axioms -->

* The reading of the Rust code into Lean definitions. `Props/Vectors.lean` checks it against the test
  vectors of the repository.
  The loops that the model rearranges (merging, first fit, buoys) are transcribed a second time, statement
  by statement with the iterators, closures and mutable variables of the code (`Model/Literal.lean`), and
  proved to compute the same (`Proofs/Literal.lean`: `mergeReveal_eq`, `tryCommit_eq`, `push_eq`). Concealing
  and merklization are written like the code in the first place.
* Semantics of dependencies that are not in `/repo`:
  * `amplify`: `u5` arithmetic panics on over/underflow in both profiles, `u5::with(n)` panics for
    n > 31, `u24::with` for n >= 2^24, `u256` is exact, `Confined` checks its bounds,
    `Confined::try_from_iter` collects first and checks then; `Bytes32` is displayed and read as
    hexadecimal digits; `display(doc_comments)` joins the lines of a comment with spaces.
  * `strict_encoding`: integers little endian; enums and options one tag byte, other tags are errors;
    `u5` one byte, 32 and above an error; collections prefixed by a length of 1, 2, 3, 4 or 8 bytes
    chosen by the maximal length, bounds checked on reading; maps and sets strictly ascending, checked
    on reading.
  * `vesper`/`strict_types`: `LenRange` wraps `Sizing`, `to_ident` changes the type only.
  * `sha2`: the hash function is a parameter; nothing is assumed of it.
