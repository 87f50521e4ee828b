{
 "claims": [
  {
   "property": "C01",
   "status": "proved",
   "theorems": [
    "CSV.C01_slots",
    "CSV.C01_leaves"
   ],
   "note": "tryCommit returning a tree determines every slot; different slots for different protocols."
  },
  {
   "property": "C02",
   "status": "proved",
   "theorems": [
    "CSV.C02_first_fit",
    "CSV.C02_independent_of_rng"
   ],
   "note": ""
  },
  {
   "property": "C03",
   "status": "proved",
   "theorems": [
    "CSV.C03_no_panic",
    "CSV.C03_panic_iff",
    "CSV.C03_empty_iff",
    "CSV.C03_cant_fit_iff",
    "CSV.C03_never_too_many"
   ],
   "note": ""
  },
  {
   "property": "C04",
   "status": "proved",
   "theorems": [
    "CSV.C04_small_sets_fit",
    "CSV.C04_numbers"
   ],
   "note": ""
  },
  {
   "property": "C05",
   "status": "proved",
   "theorems": [
    "CSV.C05_adversarial_sets",
    "CSV.C05_two_at_maximal_depth"
   ],
   "note": ""
  },
  {
   "property": "C06",
   "status": "proved",
   "theorems": [
    "CSV.C06_position"
   ],
   "note": ""
  },
  {
   "property": "C07",
   "status": "proved",
   "theorems": [
    "CSV.C07_factored_width",
    "CSV.C07_derived",
    "CSV.C07_decoded",
    "CSV.C07_decoded_proof"
   ],
   "note": ""
  },
  {
   "property": "C08",
   "status": "proved",
   "theorems": [
    "CSV.C08_static_entropy",
    "CSV.C08_random_entropy"
   ],
   "note": ""
  },
  {
   "property": "C09",
   "status": "proved",
   "theorems": [
    "CSV.C09_one_commitment",
    "CSV.C09_values",
    "CSV.C09_block"
   ],
   "note": ""
  },
  {
   "property": "C10",
   "status": "proved",
   "theorems": [
    "CSV.C10_conceal_keeps_commitment",
    "CSV.C10_any_number_of_calls",
    "CSV.C10_conceal_other"
   ],
   "note": ""
  },
  {
   "property": "C11",
   "status": "proved",
   "theorems": [
    "CSV.C11_reveals_exactly"
   ],
   "note": ""
  },
  {
   "property": "C12",
   "status": "proved",
   "theorems": [
    "CSV.C12_minimal",
    "CSV.C12_set_of_ids",
    "CSV.C12_idempotent",
    "CSV.C12_stepwise",
    "CSV.C12_canonical"
   ],
   "note": ""
  },
  {
   "property": "C13",
   "status": "proved",
   "theorems": [
    "CSV.C13_leaf_not_known",
    "CSV.C13_ok_iff"
   ],
   "note": ""
  },
  {
   "property": "C14",
   "status": "partial",
   "theorems": [
    "CSV.C14_exact",
    "CSV.C14_conceal_other",
    "CSV.C14_false",
    "CSV.C14_partial"
   ],
   "note": "False of the code: the error is returned after leaves were concealed and the entropy dropped (C14_false); C14_partial and C14_exact say what the block looks like after the error, C14_exact also when it is unchanged."
  },
  {
   "property": "C15",
   "status": "proved",
   "theorems": [
    "CSV.C15_terminates_and_counts",
    "CSV.C15_zero_iff"
   ],
   "note": ""
  },
  {
   "property": "C16",
   "status": "proved",
   "theorems": [
    "CSV.C16_committed_trees",
    "CSV.C16_placed",
    "CSV.C16_complete",
    "CSV.C16_into_known_proofs",
    "CSV.C16_into_proofs"
   ],
   "note": ""
  },
  {
   "property": "C17",
   "status": "proved",
   "theorems": [
    "CSV.C17_same_proof",
    "CSV.C17_rebuilt"
   ],
   "note": ""
  },
  {
   "property": "C18",
   "status": "proved",
   "theorems": [
    "CSV.C18_binding",
    "CSV.C18_inputs"
   ],
   "note": ""
  },
  {
   "property": "C19",
   "status": "proved",
   "theorems": [
    "CSV.C19_position_checked"
   ],
   "note": ""
  },
  {
   "property": "C20",
   "status": "partial",
   "theorems": [
    "CSV.C20_false",
    "CSV.C20_partial"
   ],
   "note": "False of the code: the path type admits 32 elements and then verification panics (C20_false); C20_partial: it panics for no shorter path."
  },
  {
   "property": "C21",
   "status": "proved",
   "theorems": [
    "CSV.C21_only_committed",
    "CSV.C21_all_committed",
    "CSV.C21_source"
   ],
   "note": ""
  },
  {
   "property": "C22",
   "status": "proved",
   "theorems": [
    "CSV.C22_rebuilt_is_concealed"
   ],
   "note": ""
  },
  {
   "property": "C23",
   "status": "proved",
   "theorems": [
    "CSV.C23_union",
    "CSV.C23_slots",
    "CSV.C23_of_tree",
    "CSV.C23_path"
   ],
   "note": ""
  },
  {
   "property": "C24",
   "status": "proved",
   "theorems": [
    "CSV.C24_unrelated",
    "CSV.C24_unrelated_path",
    "CSV.C24_wrong_position",
    "CSV.C24_error_iff"
   ],
   "note": ""
  },
  {
   "property": "C25",
   "status": "proved",
   "theorems": [
    "CSV.C25_idempotent",
    "CSV.C25_commutative",
    "CSV.C25_associative"
   ],
   "note": ""
  },
  {
   "property": "C26",
   "status": "proved",
   "theorems": [
    "CSV.C26_all_proofs",
    "CSV.C26_verified_proofs"
   ],
   "note": ""
  },
  {
   "property": "C27",
   "status": "partial",
   "theorems": [
    "CSV.C27_false",
    "CSV.C27_partial"
   ],
   "note": "False of the code from 65536 nodes on (C27_false); C27_partial: the number is right modulo 65536, and right exactly below 65536 nodes."
  },
  {
   "property": "C28",
   "status": "proved",
   "theorems": [
    "CSV.C28_any_surfaces",
    "CSV.C28_any_exact",
    "CSV.C28_any_level",
    "CSV.C28_any_no_panic",
    "CSV.C28_surfaces",
    "CSV.C28_no_panic",
    "CSV.C28_flag",
    "CSV.C28_zero"
   ],
   "note": ""
  },
  {
   "property": "C29",
   "status": "proved",
   "theorems": [
    "CSV.C29_debug",
    "CSV.C29_both_profiles",
    "CSV.C29_valid",
    "CSV.C29_panics",
    "CSV.C29_release"
   ],
   "note": ""
  },
  {
   "property": "C30",
   "status": "partial",
   "theorems": [
    "CSV.C30_false",
    "CSV.C30_partial",
    "CSV.C30_valid_blocks",
    "CSV.C30_placed_blocks",
    "CSV.C30_exact",
    "CSV.C30_followed",
    "CSV.C30_appended",
    "CSV.C30_not_appended"
   ],
   "note": "False of the code for blocks from elsewhere (C30_false: an appended leaf in release builds; two leaves for one protocol in both profiles). C30_partial, C30_valid_blocks, C30_placed_blocks: true for views of committed trees, for structurally valid blocks with a tree's commitment, and for blocks with leaves at their slots. C30_exact: exactly which blocks with a tree's commitment reveal uncommitted messages (those with such a message after the nodes of the view); C30_followed: exactly which nodes may follow in release builds; C30_appended, C30_not_appended: any single message, to any block of more than one slot."
  },
  {
   "property": "C31",
   "status": "partial",
   "theorems": [
    "CSV.C31_halves",
    "CSV.C31_same_message",
    "CSV.C31_false",
    "CSV.C31_partial",
    "CSV.C31_trees_and_blocks"
   ],
   "note": "False of the code for proofs, in both directions (C31_false); C31_partial, C31_halves and C31_same_message say exactly which proofs match, C31_trees_and_blocks gives the full claim for trees and blocks."
  },
  {
   "property": "C32",
   "status": "proved",
   "theorems": [
    "CSV.C32_root",
    "CSV.C32_limits",
    "CSV.C32_leaves",
    "CSV.C32_nodes"
   ],
   "note": ""
  },
  {
   "property": "C33",
   "status": "proved",
   "theorems": [
    "CSV.C33_binding"
   ],
   "note": ""
  },
  {
   "property": "C34",
   "status": "proved",
   "theorems": [
    "CSV.C34_separated",
    "CSV.C34_injective"
   ],
   "note": ""
  },
  {
   "property": "C35",
   "status": "partial",
   "theorems": [
    "CSV.C35_false",
    "CSV.C35_partial",
    "CSV.C35_exact"
   ],
   "note": "False of the code: a merkle node may itself be a leaf, and then a one-element list has the root of the list of its children (C35_false); C35_exact: this is the only way; C35_partial: binding for every leaf type whose hashed strings are never those of nodes."
  },
  {
   "property": "C36",
   "status": "proved",
   "theorems": [
    "CSV.C36_tagged",
    "CSV.C36_strings",
    "CSV.C36_tags",
    "CSV.C36_separated"
   ],
   "note": ""
  },
  {
   "property": "C37",
   "status": "proved",
   "theorems": [
    "CSV.C37_unambiguous",
    "CSV.C37_truncated",
    "CSV.C37_class24",
    "CSV.C37_too_large"
   ],
   "note": ""
  },
  {
   "property": "C38",
   "status": "proved",
   "theorems": [
    "CSV.C38_round_trip",
    "CSV.C38_block_serialized"
   ],
   "note": ""
  },
  {
   "property": "C39",
   "status": "proved",
   "theorems": [
    "CSV.C39_canonical",
    "CSV.C39_unmaulable"
   ],
   "note": ""
  },
  {
   "property": "C40",
   "status": "proved",
   "theorems": [
    "CSV.C40_feeds",
    "CSV.C40_returns",
    "CSV.C40_256",
    "CSV.C40_finished",
    "CSV.C40_layout_shown",
    "CSV.C40_commit"
   ],
   "note": ""
  },
  {
   "property": "C41",
   "status": "proved",
   "theorems": [
    "CSV.C41_bytes",
    "CSV.C41_binding",
    "CSV.C41_layouts"
   ],
   "note": ""
  },
  {
   "property": "C42",
   "status": "proved",
   "theorems": [
    "CSV.C42_strict",
    "CSV.C42_transparent",
    "CSV.C42_merklize",
    "CSV.C42_conceal",
    "CSV.C42_conceal_equal",
    "CSV.C42_conceal_strict"
   ],
   "note": ""
  },
  {
   "property": "C43",
   "status": "proved",
   "theorems": [
    "CSV.C43_commit_verify",
    "CSV.C43_try_commit_verify"
   ],
   "note": ""
  },
  {
   "property": "C44",
   "status": "proved",
   "theorems": [
    "CSV.C44_embed_verify_ok",
    "CSV.C44_embed_verify_errors",
    "CSV.C44_proof_mismatch_never",
    "CSV.C44_embed_complete",
    "CSV.C44_embed_sound"
   ],
   "note": ""
  },
  {
   "property": "C45",
   "status": "proved",
   "theorems": [
    "CSV.C45_convolve_verify_ok",
    "CSV.C45_convolve_verify_errors",
    "CSV.C45_convolve_complete",
    "CSV.C45_convolve_sound"
   ],
   "note": ""
  },
  {
   "property": "C46",
   "status": "proved",
   "theorems": [
    "CSV.C46_seals_closing_ok",
    "CSV.C46_seals_closing_errors",
    "CSV.C46_seals_order",
    "CSV.C46_seals_each"
   ],
   "note": ""
  },
  {
   "property": "C47",
   "status": "proved",
   "theorems": [
    "CSV.C47_one_message",
    "CSV.C47_no_seals",
    "CSV.C47_no_witness"
   ],
   "note": ""
  },
  {
   "property": "C48",
   "status": "proved",
   "theorems": [
    "CSV.C48_validity",
    "CSV.C48_merge_worse",
    "CSV.C48_monotone",
    "CSV.C48_history"
   ],
   "note": ""
  },
  {
   "property": "C49",
   "status": "proved",
   "theorems": [
    "CSV.C49_add_assign",
    "CSV.C49_monoid",
    "CSV.C49_constructors"
   ],
   "note": ""
  },
  {
   "property": "C50",
   "status": "proved",
   "theorems": [
    "CSV.C50_validate",
    "CSV.C50_each_seal_once",
    "CSV.C50_logs",
    "CSV.C50_valid_iff"
   ],
   "note": ""
  },
  {
   "property": "C51",
   "status": "partial",
   "theorems": [
    "CSV.C51_false",
    "CSV.C51_top_level_ignored",
    "CSV.C51_partial"
   ],
   "note": "False of the code: seals exposed by the top-level object are never resolved (C51_false, C51_top_level_ignored); C51_partial gives the seals that are resolved."
  },
  {
   "property": "C52",
   "status": "partial",
   "theorems": [
    "CSV.C52_false",
    "CSV.C52_partial",
    "CSV.C52_order",
    "CSV.C52_numbers"
   ],
   "note": "False of the code: the derived order puts Invalid below Valid, so the maximum of two verdicts is not the verdict of the merged report (C52_false); C52_partial says exactly when the two agree; C52_order says what the order is."
  },
  {
   "property": "C53",
   "status": "proved",
   "theorems": [
    "CSV.C53_decode",
    "CSV.C53_array",
    "CSV.C53_values",
    "CSV.C53_id",
    "CSV.C53_serde"
   ],
   "note": ""
  },
  {
   "property": "C54",
   "status": "proved",
   "theorems": [
    "CSV.C54_entries",
    "CSV.C54_predicates",
    "CSV.C54_determines",
    "CSV.C54_libraries",
    "CSV.C54_words"
   ],
   "note": ""
  },
  {
   "property": "C55",
   "status": "proved",
   "theorems": [
    "CSV.C55_starts",
    "CSV.C55_histories",
    "CSV.C55_proofs_after_histories",
    "CSV.C55_source"
   ],
   "note": ""
  },
  {
   "property": "C56",
   "status": "proved",
   "theorems": [
    "CSV.C56_conceal_except",
    "CSV.C56_block_commitment",
    "CSV.C56_to_merkle_proof",
    "CSV.C56_protocol_twice",
    "CSV.C56_verification",
    "CSV.C56_merge_reveal",
    "CSV.C56_merge_reveal_path",
    "CSV.C56_trees",
    "CSV.C56_into_proofs"
   ],
   "note": ""
  },
  {
   "property": "C57",
   "status": "proved",
   "theorems": [
    "CSV.C57_hidden_parts",
    "CSV.C57_proof_content",
    "CSV.C57_siblings_determine"
   ],
   "note": ""
  },
  {
   "property": "C58",
   "status": "proved",
   "theorems": [
    "CSV.C58_default",
    "CSV.C58_default_rng",
    "CSV.C58_dumb_block"
   ],
   "note": ""
  },
  {
   "property": "C59",
   "status": "proved",
   "theorems": [
    "CSV.C59_option_layout",
    "CSV.C59_same_step",
    "CSV.C59_layout_not_hashed"
   ],
   "note": ""
  },
  {
   "property": "C60",
   "status": "proved",
   "theorems": [
    "CSV.C60_binding",
    "CSV.C60_sources",
    "CSV.C60_determined"
   ],
   "note": ""
  },
  {
   "property": "C61",
   "status": "proved",
   "theorems": [
    "CSV.C61_bounds",
    "CSV.C61_survives"
   ],
   "note": ""
  },
  {
   "property": "C62",
   "status": "proved",
   "theorems": [
    "CSV.C62_uniform",
    "CSV.C62_derived",
    "CSV.C62_fields",
    "CSV.C62_published",
    "CSV.C62_library",
    "CSV.C62_handwritten"
   ],
   "note": ""
  },
  {
   "property": "C63",
   "status": "proved",
   "theorems": [
    "CSV.C63_received",
    "CSV.C63_debug",
    "CSV.C63_begins"
   ],
   "note": ""
  },
  {
   "property": "C64",
   "status": "partial",
   "theorems": [
    "CSV.C64_iff",
    "CSV.C64_debug_iff",
    "CSV.C64_path_iff",
    "CSV.C64_false",
    "CSV.C64_partial",
    "CSV.C64_histories",
    "CSV.C64_release_false",
    "CSV.C64_moderate",
    "CSV.C64_moderate_histories",
    "CSV.C64_release_panics",
    "CSV.C64_release_trailing",
    "CSV.C64_release_iff",
    "CSV.C64_source"
   ],
   "note": "False of the code: a decoded block with hidden nodes one level too deep panics when merged (C64_false), and in release builds a crafted block plants any message (C64_release_false) or, with 111 bytes, makes every merge with a block of the tree panic (C64_release_panics). C64_partial, C64_histories, C64_source: true in debug builds for every received block that has a commitment merged into blocks of committed trees, for all histories. C64_moderate, C64_moderate_histories: in both profiles, merges of at most 2^(32 - depth) nodes in all reveal exactly the committed messages of the views, unless they panic. C64_iff, C64_debug_iff, C64_path_iff: exactly when merging of blocks and of proofs returns (any profile for blocks that are trees; all blocks in debug builds), unless SHA256 collides."
  },
  {
   "property": "C65",
   "status": "proved",
   "theorems": [
    "CSV.C65_sha256",
    "CSV.C65_tagged",
    "CSV.C65_separated",
    "CSV.C65_fields"
   ],
   "note": ""
  },
  {
   "property": "C66",
   "status": "proved",
   "theorems": [
    "CSV.C66_nodes",
    "CSV.C66_block_bytes",
    "CSV.C66_bytes",
    "CSV.C66_proof_bytes"
   ],
   "note": ""
  },
  {
   "property": "C67",
   "status": "proved",
   "theorems": [
    "CSV.C67_no_double_closing",
    "CSV.C67_closable",
    "CSV.C67_from_blocks"
   ],
   "note": ""
  },
  {
   "property": "C68",
   "status": "proved",
   "theorems": [
    "CSV.C68_agrees",
    "CSV.C68_hashed",
    "CSV.C68_exchanged",
    "CSV.C68_reserved"
   ],
   "note": ""
  },
  {
   "property": "C69",
   "status": "proved",
   "theorems": [
    "CSV.C69_commit",
    "CSV.C69_verify",
    "CSV.C69_merkle_root",
    "CSV.C69_interoperable"
   ],
   "note": ""
  },
  {
   "property": "C70",
   "status": "proved",
   "theorems": [
    "CSV.C70_map",
    "CSV.C70_of_tree",
    "CSV.C70_source",
    "CSV.C70_any_order",
    "CSV.C70_panics"
   ],
   "note": ""
  },
  {
   "property": "C71",
   "status": "proved",
   "theorems": [
    "CSV.C71_at_most_one",
    "CSV.C71_source"
   ],
   "note": ""
  },
  {
   "property": "C72",
   "status": "proved",
   "theorems": [
    "CSV.C72_any",
    "CSV.C72_trailing"
   ],
   "note": "Both profiles; no hypothesis on the blocks or on the hash function. Each node of the result comes from one of the operands; `coverage` is defined in Spec/Clash.lean. C72_trailing: what a merge does with nodes appended to a block of a tree."
  },
  {
   "property": "C73",
   "status": "proved",
   "theorems": [
    "CSV.C73_union",
    "CSV.C73_clash"
   ],
   "note": "For every hash function (the environment is universally quantified), with an example in which all hashes are equal."
  },
  {
   "property": "C74",
   "status": "proved",
   "theorems": [
    "CSV.C74_exact",
    "CSV.C74_at_most_one",
    "CSV.C74_source"
   ],
   "note": "Decoded proofs have at most 31 hashes here; with 32 the verification panics (C20). The codec of published witnesses is any exact one."
  },
  {
   "property": "C75",
   "status": "proved",
   "theorems": [
    "CSV.C75_join",
    "CSV.C75_order",
    "CSV.C75_exchange"
   ],
   "note": "For every hash function. C75_join and C75_order hold for every structurally valid block; C75_exchange is an induction over all exchanges between honest parties (what dishonest ones can inject is C63 and C64)."
  },
  {
   "property": "C76",
   "status": "proved",
   "theorems": [
    "CSV.C76_binding",
    "CSV.C76_plain",
    "CSV.C76_agree",
    "CSV.C76_types"
   ],
   "note": "Record types are declared by the inductive type `Record` (Spec/Record.lean); C76_types transfers the result to every type whose commit_encode makes the calls of such a record. Serializations are assumed self-delimiting, as for C41."
  },
  {
   "property": "C77",
   "status": "proved",
   "theorems": [
    "CSV.C77_compiles",
    "CSV.C77_refused",
    "CSV.C77_commits",
    "CSV.C77_library"
   ],
   "note": "Paths are strings and compilation is modelled as the presence of the traits needed; argument classes and unknown arguments (dependency amplify_syn) are not modelled."
  },
  {
   "property": "C78",
   "status": "proved",
   "theorems": [
    "CSV.C78_errors"
   ],
   "note": "The texts of seals, ids and witness errors are arbitrary functions. Debug formatting is not modelled."
  },
  {
   "property": "C79",
   "status": "proved",
   "theorems": [
    "CSV.C79_tree",
    "CSV.C79_any",
    "CSV.C79_iff",
    "CSV.C79_conceals",
    "CSV.C79_release"
   ],
   "note": "Both profiles, any block: C79_conceals (blocks that have a commitment), C79_any and C79_iff (what a returning call did). That the result is structurally valid is for debug builds: in release builds blocks with trailing nodes also have a commitment (C29)."
  },
  {
   "property": "C80",
   "status": "proved",
   "theorems": [
    "CSV.C80_proofs",
    "CSV.C80_debug",
    "CSV.C80_release",
    "CSV.C80_release_wrong",
    "CSV.C80_release_exact"
   ],
   "note": "The panic in debug builds is the debug assertion on duplicate depths or on the number of hashes. Release builds: C80_release for any block with a commitment, C80_release_wrong for the wrong proofs."
  },
  {
   "property": "C81",
   "status": "proved",
   "theorems": [
    "CSV.C81_hiding",
    "CSV.C81_sources",
    "CSV.C81_guess"
   ],
   "note": "The hash function is used as an oracle: observers may use any computation and any number of adaptive queries except for strings of hidden leaves. How hard guessing is (messages are hashes, the entropy has 64 bits) is not part of the statement. The shape (method, depth, cofactor) is not hidden."
  },
  {
   "property": "C82",
   "status": "proved",
   "theorems": [
    "CSV.C82_reads",
    "CSV.C82_round_trip",
    "CSV.C82_errors"
   ],
   "note": "Hexadecimal text of Bytes32 and the joining of documentation lines are behaviour of the dependency amplify and are trusted; reading errors are not distinguished."
  },
  {
   "property": "C83",
   "status": "proved",
   "theorems": [
    "CSV.C83_engine",
    "CSV.C83_ids",
    "CSV.C83_steady",
    "CSV.C83_blocks",
    "CSV.C83_trees",
    "CSV.C83_histories",
    "CSV.C83_one_way",
    "CSV.C83_commitments"
   ],
   "note": "User-supplied commitment encodings and concealments are required not to distinguish the profiles themselves (SteadyEncode, SteadyConceal); C83_steady shows this for encodings made of engine calls, all derive strategies and the types of the library."
  },
  {
   "property": "C84",
   "status": "proved",
   "theorems": [
    "CSV.C84_tree",
    "CSV.C84_block",
    "CSV.C84_debug",
    "CSV.C84_proof",
    "CSV.C84_conceal",
    "CSV.C84_merge",
    "CSV.C84_merklize",
    "CSV.C84_record"
   ],
   "note": "Strings hashed for nodes following a complete tree in release builds are not counted."
  },
  {
   "property": "C85",
   "status": "proved",
   "theorems": [
    "CSV.C85_conceal_rounds",
    "CSV.C85_conceal",
    "CSV.C85_conceal_tight",
    "CSV.C85_conceal_any",
    "CSV.C85_merge",
    "CSV.C85_commit"
   ],
   "note": "Rounds of loops are counted, not machine steps. That try_commit stops at the first pair that fits is how the model's loop is written; the theorem gives the list of pairs and which of them is taken."
  },
  {
   "property": "C86",
   "status": "proved",
   "theorems": [
    "CSV.C86_slot",
    "CSV.C86_absent",
    "CSV.C86_complete",
    "CSV.C86_received",
    "CSV.C86_source"
   ],
   "note": ""
  },
  {
   "property": "C87",
   "status": "proved",
   "theorems": [
    "CSV.C87_depth",
    "CSV.C87_all",
    "CSV.C87_count",
    "CSV.C87_most",
    "CSV.C87_numbers"
   ],
   "note": ""
  },
  {
   "property": "C88",
   "status": "proved",
   "theorems": [
    "CSV.C88_no_double_spend",
    "CSV.C88_no_fork",
    "CSV.C88_reconcile",
    "CSV.C88_accepted"
   ],
   "note": ""
  },
  {
   "property": "C89",
   "status": "proved",
   "theorems": [
    "CSV.C89_experiment",
    "CSV.C89_no_collision",
    "CSV.C89_numbers",
    "CSV.C89_binding",
    "CSV.C89_double_spend"
   ],
   "note": ""
  },
  {
   "property": "C90",
   "status": "proved",
   "theorems": [
    "CSV.C90_entropy",
    "CSV.C90_message",
    "CSV.C90_sharp"
   ],
   "note": ""
  },
  {
   "property": "C91",
   "status": "proved",
   "theorems": [
    "CSV.C91_fewer",
    "CSV.C91_contents"
   ],
   "note": ""
  },
  {
   "property": "C92",
   "status": "partial",
   "theorems": [
    "CSV.C92_partial",
    "CSV.C92_unchanged",
    "CSV.C92_unchanged_iff",
    "CSV.C92_false"
   ],
   "note": "False of the code: raising the minimal depth may make try_commit fail (C92_false). Proved: lowering keeps success and never gives a deeper tree (C92_partial); raising to a value below the depth of the tree, or equal to it with a cofactor of at most 1, changes nothing, and raising to the depth of the tree with a larger cofactor always changes the result (C92_unchanged, C92_unchanged_iff)."
  },
  {
   "property": "C93",
   "status": "proved",
   "theorems": [
    "CSV.C93_depth",
    "CSV.C93_table",
    "CSV.C93_sharp"
   ],
   "note": ""
  },
  {
   "property": "C94",
   "status": "proved",
   "theorems": [
    "CSV.C94_reduction",
    "CSV.C94_calls",
    "CSV.C94_openings",
    "CSV.C94_sources"
   ],
   "note": "The implementation of SHA256 in the model is a transcription of FIPS 180-4, checked against test vectors, not of the code of the dependency sha2."
  },
  {
   "property": "C95",
   "status": "proved",
   "theorems": [
    "CSV.C95_merkle_set",
    "CSV.C95_linear_set",
    "CSV.C95_linear_map"
   ],
   "note": ""
  },
  {
   "property": "C96",
   "status": "proved",
   "theorems": [
    "CSV.C96_bytes",
    "CSV.C96_order"
   ],
   "note": ""
  },
  {
   "property": "C97",
   "status": "proved",
   "theorems": [
    "CSV.C97_provable",
    "CSV.C97_into_proofs",
    "CSV.C97_source",
    "CSV.C97_unprotected"
   ],
   "note": ""
  },
  {
   "property": "C98",
   "status": "proved",
   "theorems": [
    "CSV.C98_framed",
    "CSV.C98_bounded"
   ],
   "note": ""
  },
  {
   "property": "C99",
   "status": "partial",
   "theorems": [
    "CSV.C99_blocks",
    "CSV.C99_block_bytes",
    "CSV.C99_proof_bytes",
    "CSV.C99_tree_hashes",
    "CSV.C99_tree_distinct",
    "CSV.C99_tree",
    "CSV.C99_tree_work",
    "CSV.C99_false",
    "CSV.C99_partial"
   ],
   "note": "False of the code for trees: 18 bytes deserialize to a tree whose commitment needs the hashes of 2^31 strings (C99_false), and every tree needs at least one hash for each free slot (C99_tree). Proved for all blocks and proofs, malformed ones and both profiles included: at most one hash per 17 bytes of a block and per 32 bytes of a proof plus two (C99_block_bytes, C99_proof_bytes, C99_partial)."
  },
  {
   "property": "C100",
   "status": "proved",
   "theorems": [
    "CSV.C100_own_proof",
    "CSV.C100_other_proofs"
   ],
   "note": ""
  },
  {
   "property": "C101",
   "status": "proved",
   "theorems": [
    "CSV.C101_room",
    "CSV.C101_moved",
    "CSV.C101_joined",
    "CSV.C101_left",
    "CSV.C101_histories"
   ],
   "note": ""
  },
  {
   "property": "C102",
   "status": "proved",
   "theorems": [
    "CSV.C102_structure",
    "CSV.C102_structure_tight",
    "CSV.C102_conceal",
    "CSV.C102_id",
    "CSV.C102_entropy",
    "CSV.C102_block_entropy",
    "CSV.C102_single",
    "CSV.C102_merge"
   ],
   "note": ""
  },
  {
   "property": "C103",
   "status": "proved",
   "theorems": [
    "CSV.C103_binding",
    "CSV.C103_complete",
    "CSV.C103_sound",
    "CSV.C103_replace"
   ],
   "note": ""
  },
  {
   "property": "C104",
   "status": "proved",
   "theorems": [
    "CSV.C104_no_double_closing",
    "CSV.C104_only_committed",
    "CSV.C104_histories",
    "CSV.C104_merge",
    "CSV.C104_revealed_is_not_enough"
   ],
   "note": ""
  },
  {
   "property": "C105",
   "status": "proved",
   "theorems": [
    "CSV.C105_split",
    "CSV.C105_memoryless",
    "CSV.C105_verdict",
    "CSV.C105_order",
    "CSV.C105_cache",
    "CSV.C105_cache_asks",
    "CSV.C105_memory_matters",
    "CSV.C105_later",
    "CSV.C105_named"
   ],
   "note": ""
  },
  {
   "property": "C106",
   "status": "proved",
   "theorems": [
    "CSV.C106_embed_suite",
    "CSV.C106_embed_nodup",
    "CSV.C106_embed_always",
    "CSV.C106_embed_sufficient",
    "CSV.C106_convolve_suite",
    "CSV.C106_convolve_nodup",
    "CSV.C106_convolve_exact",
    "CSV.C106_dummy_embed",
    "CSV.C106_dummy_convolve",
    "CSV.C106_container_unseen"
   ],
   "note": ""
  },
  {
   "property": "C107",
   "status": "proved",
   "theorems": [
    "CSV.C107_embed_binding",
    "CSV.C107_coarse",
    "CSV.C107_convolve_binding",
    "CSV.C107_complete",
    "CSV.C107_binding",
    "CSV.C107_sound",
    "CSV.C107_proof_needed",
    "CSV.C107_seals",
    "CSV.C107_convolve"
   ],
   "note": ""
  },
  {
   "property": "C108",
   "status": "proved",
   "theorems": [
    "CSV.C108_run",
    "CSV.C108_confined",
    "CSV.C108_converge",
    "CSV.C108_union"
   ],
   "note": ""
  },
  {
   "property": "C109",
   "status": "proved",
   "theorems": [
    "CSV.C109_run",
    "CSV.C109_confined",
    "CSV.C109_converge",
    "CSV.C109_union",
    "CSV.C109_immediate"
   ],
   "note": ""
  },
  {
   "property": "C110",
   "status": "proved",
   "theorems": [
    "CSV.C110_store",
    "CSV.C110_order",
    "CSV.C110_prove",
    "CSV.C110_refused",
    "CSV.C110_separate",
    "CSV.C110_origin"
   ],
   "note": ""
  },
  {
   "property": "C111",
   "status": "proved",
   "theorems": [
    "CSV.C111_smallest",
    "CSV.C111_received",
    "CSV.C111_nodes"
   ],
   "note": ""
  },
  {
   "property": "C112",
   "status": "proved",
   "theorems": [
    "CSV.C112_known",
    "CSV.C112_decided",
    "CSV.C112_numbers",
    "CSV.C112_long_after"
   ],
   "note": ""
  },
  {
   "property": "C113",
   "status": "proved",
   "theorems": [
    "CSV.C113_below",
    "CSV.C113_contents",
    "CSV.C113_contract",
    "CSV.C113_numbers"
   ],
   "note": ""
  },
  {
   "property": "C114",
   "status": "proved",
   "theorems": [
    "CSV.C114_committed",
    "CSV.C114_numbers"
   ],
   "note": ""
  },
  {
   "property": "C115",
   "status": "proved",
   "theorems": [
    "CSV.C115_in_order",
    "CSV.C115_no_cycle",
    "CSV.C115_contract",
    "CSV.C115_numbers"
   ],
   "note": ""
  },
  {
   "property": "C116",
   "status": "proved",
   "theorems": [
    "CSV.C116_decided",
    "CSV.C116_plain",
    "CSV.C116_message",
    "CSV.C116_contract",
    "CSV.C116_numbers"
   ],
   "note": ""
  },
  {
   "property": "C117",
   "status": "proved",
   "theorems": [
    "CSV.C117_ids",
    "CSV.C117_histories",
    "CSV.C117_numbers"
   ],
   "note": ""
  },
  {
   "property": "C118",
   "status": "proved",
   "theorems": [
    "CSV.C118_absent",
    "CSV.C118_blocks",
    "CSV.C118_numbers"
   ],
   "note": ""
  }
 ]
}
