{
 "claims": [
  {
   "property": "C01",
   "status": "proved",
   "theorems": [
    "Vtp.Props.encodeVarint_writes",
    "Vtp.Props.encodeVarint_no_room",
    "Vtp.Props.sizeOfVarint_minimal"
   ],
   "note": "All buffers, offsets and values."
  },
  {
   "property": "C02",
   "status": "proved",
   "theorems": [
    "Vtp.Props.decodeVarint_encodeVarint"
   ],
   "note": ""
  },
  {
   "property": "C03",
   "status": "proved",
   "theorems": [
    "Vtp.Props.zigzag64_correct",
    "Vtp.Props.zigzag32_correct",
    "Vtp.Props.unzigzag_correct"
   ],
   "note": ""
  },
  {
   "property": "C04",
   "status": "proved",
   "theorems": [
    "Vtp.Props.decodeVarint_value",
    "Vtp.Props.decodeVarint_sound"
   ],
   "note": "For every destination width w."
  },
  {
   "property": "C05",
   "status": "partial",
   "theorems": [
    "Vtp.Props.varint_overflow_partial",
    "Vtp.Props.varint_overflow_accepted",
    "Vtp.Props.decodeVarint_err_iff"
   ],
   "note": "Over-long varints are rejected; a ten-byte varint above 2^64-1 is accepted (violation shown by witness); decodeVarint_err_iff characterises rejection exactly."
  },
  {
   "property": "C06",
   "status": "proved",
   "theorems": [
    "Vtp.Props.skip_total"
   ],
   "note": "int width 32 or 64; input length at most MaxInt-8, which Go slices cannot exceed in practice."
  },
  {
   "property": "C07",
   "status": "proved",
   "theorems": [
    "Vtp.Props.skip_record"
   ],
   "note": ""
  },
  {
   "property": "C08",
   "status": "proved",
   "theorems": [
    "Vtp.Props.skip_is_record",
    "Vtp.Props.skip_iff",
    "Vtp.Props.skip_bad_tag",
    "Vtp.Props.skip_truncated",
    "Vtp.Props.skip_lenient"
   ],
   "note": "\"Well-formed sequence of tags and payloads\" in the liberal sense stated by Spec.LooseRecord; skip_lenient shows what is not checked."
  },
  {
   "property": "C09",
   "status": "proved",
   "theorems": [
    "Vtp.Props.key_correct",
    "Vtp.Props.key_prefix_free"
   ],
   "note": ""
  },
  {
   "property": "C10",
   "status": "proved",
   "theorems": [
    "Vtp.Props.size_eq_length",
    "Vtp.Props.typed_nil_wrapper_panics"
   ],
   "note": "All coherent schemas and well-typed messages; typed nil oneof wrappers excluded (they make MarshalVT panic, shown by witness). Foreign messages: proto.Size = len(proto.Marshal) assumed."
  },
  {
   "property": "C11",
   "status": "proved",
   "theorems": [
    "Vtp.Props.marshalToSized_tail",
    "Vtp.Props.marshalToSized_short"
   ],
   "note": ""
  },
  {
   "property": "C12",
   "status": "proved",
   "theorems": [
    "Vtp.Props.marshalTo_prefix",
    "Vtp.Props.marshalTo_short"
   ],
   "note": "The buffer argument is the backing array up to its capacity: the code never looks at the length."
  },
  {
   "property": "C13",
   "status": "proved",
   "theorems": [
    "Vtp.Props.marshal_encodes",
    "Vtp.Props.encode_default",
    "Vtp.Props.ascending_correct"
   ],
   "note": ""
  },
  {
   "property": "C14",
   "status": "proved",
   "theorems": [
    "Vtp.Props.marshal_encodes",
    "Vtp.Props.encode_strict",
    "Vtp.Props.strict_permutes",
    "Vtp.Props.strict_length"
   ],
   "note": "Permutation stated per message level, for equal encodings of sub-messages; lengths agree at all levels."
  },
  {
   "property": "C15",
   "status": "partial",
   "theorems": [
    "Vtp.Props.size_shuffle",
    "Vtp.Props.map_order",
    "Vtp.Props.marshal_shuffle",
    "Vtp.Props.decode_shuffle_partial",
    "Vtp.Props.decode_shuffle_pooled_partial"
   ],
   "note": "Size and marshalling: all schemas and messages, at any depth (the runtime assumed to do the same for foreign messages). Decoding to equal maps: for messages that survive a round trip (see C23), without NaN; with pools, into empty messages from the pool and without `optional bytes` fields in pooled messages (see C51)."
  },
  {
   "property": "C16",
   "status": "proved",
   "theorems": [
    "Vtp.Props.marshal_fails_iff",
    "Vtp.Props.marshalToSized_missing"
   ],
   "note": ""
  },
  {
   "property": "C17",
   "status": "partial",
   "theorems": [
    "Vtp.Props.implicit_presence",
    "Vtp.Props.explicit_presence",
    "Vtp.Props.negative_zero_dropped",
    "Vtp.Props.scalars_restored_partial",
    "Vtp.Props.scalars_restored_pooled_partial"
   ],
   "note": "Each presence rule of size and marshal; scalar slots of a restorable message come back after decoding its encoding. Missing: -0.0 in fields without presence is written as nothing (witness), messages outside of Restorable (groups, extensions)."
  },
  {
   "property": "C18",
   "status": "proved",
   "theorems": [
    "Vtp.Props.nil_marshal",
    "Vtp.Props.nil_equal",
    "Vtp.Props.nil_reset",
    "Vtp.Props.nil_clone",
    "Vtp.Props.clone_nil"
   ],
   "note": ""
  },
  {
   "property": "C20",
   "status": "partial",
   "theorems": [
    "Vtp.Props.unmarshal_returns_partial",
    "Vtp.Props.new_message_typed",
    "Vtp.Props.nil_member_panics",
    "Vtp.Props.map_bytes_32_panics"
   ],
   "note": "Holds for every schema, input and every receiver whose oneofs hold no nil members; it fails for nil oneof members and for map<_, bytes> on 32-bit targets (witnesses). Covers the unsafe variant too."
  },
  {
   "property": "C21",
   "status": "proved",
   "theorems": [
    "Vtp.Props.unmarshal_terminates",
    "Vtp.Props.record_progress",
    "Vtp.Props.unmarshal_depth"
   ],
   "note": "For the receivers of C20."
  },
  {
   "property": "C22",
   "status": "partial",
   "theorems": [
    "Vtp.Props.unmarshal_decodes_partial",
    "Vtp.Props.pooled_decodes_partial",
    "Vtp.Props.decodes_unique",
    "Vtp.Props.entry_duplicate",
    "Vtp.Props.entry_no_message",
    "Vtp.Props.bool_32",
    "Vtp.Props.group_rejected",
    "Vtp.Props.extension_wipes"
   ],
   "note": "Valid encodings defined relationally in Spec/Decode.lean, independent of the decoder; schemas with and without pools. Left out because the code does otherwise, each with a witness: group records, map entries with repeated keys/values or without their message value, bools on 32-bit targets, extension ranges."
  },
  {
   "property": "C23",
   "status": "partial",
   "theorems": [
    "Vtp.Props.round_trip_partial",
    "Vtp.Props.round_trip_pooled_partial",
    "Vtp.Props.group_round_trip_fails",
    "Vtp.Props.nil_element_not_restored",
    "Vtp.Props.bad_unknown_not_restored",
    "Vtp.Props.negative_zero_not_restored",
    "Vtp.Props.extension_not_marshalled"
   ],
   "note": "All schemas, both field orders, 32 and 64 bit, with and without pools. Messages excluded (where the property is false, by witness): groups, malformed or clashing unknown fields, nil elements of types with required fields, optional bytes of pooled types; NaN for EqualVT. Extensions are dropped."
  },
  {
   "property": "C24",
   "status": "partial",
   "theorems": [
    "Vtp.Props.remarshal_partial",
    "Vtp.Props.round_trip_pooled_partial"
   ],
   "note": "As C23; no condition on NaN."
  },
  {
   "property": "C25",
   "status": "proved",
   "theorems": [
    "Vtp.Props.concat_merges"
   ],
   "note": "Both variants; the second call sees the pool and buffer where the first left them."
  },
  {
   "property": "C26",
   "status": "partial",
   "theorems": [
    "Vtp.Props.last_wins",
    "Vtp.Props.lists_append",
    "Vtp.Props.messages_merge",
    "Vtp.Props.foreign_last_wins",
    "Vtp.Props.last_wins_pooled",
    "Vtp.Props.lists_append_pooled",
    "Vtp.Props.messages_merge_pooled"
   ],
   "note": "All sequences of occurrences in valid encodings (as in C22), with and without pools. False for foreign messages (witness)."
  },
  {
   "property": "C27",
   "status": "proved",
   "theorems": [
    "Vtp.Props.unknown_kept",
    "Vtp.Props.unknown_inert",
    "Vtp.Props.unknown_marshalled",
    "Vtp.Props.unknown_kept_pooled",
    "Vtp.Props.unknown_inert_pooled"
   ],
   "note": "Valid encodings, with and without pools (any accepted input: C96); numbers in extension ranges are C36."
  },
  {
   "property": "C28",
   "status": "partial",
   "theorems": [
    "Vtp.Props.cut_record_rejected",
    "Vtp.Props.cut_encoding_rejected",
    "Vtp.Props.cut_encoding_rejected_pooled",
    "Vtp.Props.long_length_rejected_partial",
    "Vtp.Props.long_length_32"
   ],
   "note": "Cut points inside the first unread record, after any accepted or valid beginning, with and without pools. Declared length beyond the input: proved on 64-bit targets, on 32-bit targets for lengths below 2^31; false for longer ones there, which are cut to 32 bits and accepted (long_length_32)."
  },
  {
   "property": "C29",
   "status": "proved",
   "theorems": [
    "Vtp.Props.oneof_last",
    "Vtp.Props.oneof_untouched",
    "Vtp.Props.oneof_last_pooled",
    "Vtp.Props.oneof_untouched_pooled",
    "Vtp.Props.marshal_encodes",
    "Vtp.Props.encode_default",
    "Vtp.Props.encode_strict"
   ],
   "note": "Valid encodings, with and without pools (any accepted input: C96). Marshalling of the member: Spec.oneof in encode_default / encode_strict."
  },
  {
   "property": "C30",
   "status": "proved",
   "theorems": [
    "Vtp.Props.any_chunking",
    "Vtp.Props.any_chunking_pooled"
   ],
   "note": "Every mixture of packed and single records, packed or unpacked declaration, with and without pools."
  },
  {
   "property": "C31",
   "status": "partial",
   "theorems": [
    "Vtp.Props.packed_overrun_rejected_partial",
    "Vtp.Props.packed_overrun_accepted"
   ],
   "note": "Proved for records at the end of the input; false with more input behind (witness)."
  },
  {
   "property": "C32",
   "status": "partial",
   "theorems": [
    "Vtp.Props.map_entries_partial",
    "Vtp.Props.map_entries_pooled_partial",
    "Vtp.Props.entry_duplicate",
    "Vtp.Props.entry_no_message"
   ],
   "note": "With and without pools. False for entries with repeated keys/values and without message value (witnesses)."
  },
  {
   "property": "C33",
   "status": "partial",
   "theorems": [
    "Vtp.Props.wrong_wire_type_partial",
    "Vtp.Props.map_wire_type_accepted"
   ],
   "note": "Fails for keys and values inside map entries (witness)."
  },
  {
   "property": "C34",
   "status": "partial",
   "theorems": [
    "Vtp.Props.group_rejected",
    "Vtp.Props.group_round_trip_fails"
   ],
   "note": "The property is false: every input with a group field present is rejected, for all schemas, beginnings and rests."
  },
  {
   "property": "C35",
   "status": "proved",
   "theorems": [
    "Vtp.Props.required_iff",
    "Vtp.Props.required_iff_pooled",
    "Vtp.Props.split_required_rejected",
    "Vtp.Props.accepted_input"
   ],
   "note": "With and without pools; any number of required fields. accepted_input: no byte string at all is accepted without a record for each required field. split_required_rejected: each piece of a split sub-message must be complete by itself."
  },
  {
   "property": "C36",
   "status": "partial",
   "theorems": [
    "Vtp.Props.extension_wipes",
    "Vtp.Props.extension_not_marshalled"
   ],
   "note": "The property is false: for every schema and input, decoding an extension record replaces the message by what the runtime makes of the record alone."
  },
  {
   "property": "C37",
   "status": "partial",
   "theorems": [
    "Vtp.Props.field_number_partial",
    "Vtp.Props.field_number_accepted"
   ],
   "note": "Fails for numbers from 2^29 on, which are cut to 32 bits or kept as unknown (witnesses)."
  },
  {
   "property": "C38",
   "status": "partial",
   "theorems": [
    "Vtp.Props.prealloc_bounded",
    "Vtp.Props.prealloc_exact_partial",
    "Vtp.Props.prealloc_enum",
    "Vtp.Props.prealloc_bool"
   ],
   "note": "Bound for all inputs and kinds. The exact count is false for enum and bool (witnesses)."
  },
  {
   "property": "C40",
   "status": "proved",
   "theorems": [
    "Vtp.Props.equal_symm",
    "Vtp.Props.equal_trans",
    "Vtp.Props.equal_refl",
    "Vtp.Props.equal_self",
    "Vtp.Props.nan_differs"
   ],
   "note": "Any sharing of pointers between the messages; with NaN only for messages which share none (nan_shared)."
  },
  {
   "property": "C41",
   "status": "proved",
   "theorems": [
    "Vtp.Props.equal_iff_same",
    "Vtp.Props.equal_of_same",
    "Vtp.Props.same_content",
    "Vtp.Props.equalMessage_iff",
    "Vtp.Props.nan_shared",
    "Vtp.Props.extensions_not_compared"
   ],
   "note": "Content defined in Spec/Same.lean. Assumes proto.Equal is an equivalence on foreign messages."
  },
  {
   "property": "C42",
   "status": "partial",
   "theorems": [
    "Vtp.Props.equal_total",
    "Vtp.Props.equal_marshals_same_partial",
    "Vtp.Props.zeros_marshal_differently",
    "Vtp.Props.nil_marshals_differently"
   ],
   "note": "Never panics: proved. Same bytes: false for nil elements of types with required fields (witness), which are excluded with negative zeros. Foreign messages: assumes proto.Equal ones marshal alike."
  },
  {
   "property": "C45",
   "status": "partial",
   "theorems": [
    "Vtp.Props.clone_nil",
    "Vtp.Props.clone_equal_partial",
    "Vtp.Props.clone_equal_self_partial",
    "Vtp.Props.clone_sets_bytes",
    "Vtp.Props.clone_drops_extensions"
   ],
   "note": "Proved for any messages the pools hand out (PoolsBlank, which from_pool_blank of C50 establishes over all histories), nil elements and typed nil oneof wrappers included: CloneVT returns, and the clone is EqualVT both ways without NaN, marshals to the same bytes (whatever the iteration order oracle gives), has the same size. Missing: pooled types with optional bytes fields, where it is false (clone_sets_bytes). Extensions are not cloned (clone_drops_extensions); EqualVT and MarshalVT ignore them. That the original is left unchanged is C46."
  },
  {
   "property": "C46",
   "status": "partial",
   "theorems": [
    "Vtp.Props.clone_separate_partial",
    "Vtp.Props.clone_guards_original_partial",
    "Vtp.Props.clone_keeps_alias",
    "Vtp.Props.clone_of_leftover"
   ],
   "note": "Messages as objects in memory, in every history of a program. Missing, as it is false: originals decoded without copying, whose clone keeps strings that are in the buffer (clone_keeps_alias); and, if pools hold messages with memory in the same buffer, a clone through which the original can be changed (clone_of_leftover)."
  },
  {
   "property": "C47",
   "status": "partial",
   "theorems": [
    "Vtp.Props.unsafe_agrees_partial",
    "Vtp.Props.unsafe_differs_32"
   ],
   "note": "All inputs, all receivers, also the error outcomes. On 32-bit targets maps with bytes values are excluded, where the property fails (witness)."
  },
  {
   "property": "C48",
   "status": "proved",
   "theorems": [
    "Vtp.Props.safe_no_alias",
    "Vtp.Props.unsafe_alias_only_strings"
   ],
   "note": "Map keys are modelled with their content at insertion time (see DESIGN.md)."
  },
  {
   "property": "C50",
   "status": "partial",
   "theorems": [
    "Vtp.Props.from_pool_blank",
    "Vtp.Props.from_pool_is_new_partial",
    "Vtp.Props.truncated_list_leaks",
    "Vtp.Props.reset_keeps_bytes"
   ],
   "note": "All histories of get, build, change, decode (any outcome), reset, return and garbage collection. from_pool_blank: what remains is memory kept for reuse. False for optional bytes fields and after cutting a list of messages short (witnesses)."
  },
  {
   "property": "C51",
   "status": "partial",
   "theorems": [
    "Vtp.Props.decode_from_pool",
    "Vtp.Props.decode_from_pool_same_partial",
    "Vtp.Props.pooled_decode_differs"
   ],
   "note": "All histories, inputs, outcomes, both decoders. False for optional bytes fields of pooled messages (witness)."
  },
  {
   "property": "C52",
   "status": "proved",
   "theorems": [
    "Vtp.Props.pool_exclusive",
    "Vtp.Props.pool_hands_out_unused",
    "Vtp.Props.operations_isolated",
    "Vtp.Props.operations_framed",
    "Vtp.Props.double_return_shares",
    "Vtp.Props.reset_panic_shares"
   ],
   "note": "For all histories of new, FromVTPool, ReturnToVTPool, ResetVT, decoding with and without copies, CloneVT, changes by the program, collection. Operations of the library are atomic. A message whose ResetVT panicked counts as given up (reset_panic_shares: its sub-messages are in the pool already)."
  },
  {
   "property": "C53",
   "status": "partial",
   "theorems": [
    "Vtp.Props.reset_blank",
    "Vtp.Props.reset_returns_iff",
    "Vtp.Props.blank_is_new_partial",
    "Vtp.Props.reset_keeps_bytes",
    "Vtp.Props.reset_panics"
   ],
   "note": "reset_returns_iff says exactly when ResetVT panics. False for optional bytes fields (witness)."
  },
  {
   "property": "C54",
   "status": "partial",
   "theorems": [
    "Vtp.Props.buffers_kept_partial",
    "Vtp.Props.decode_keeps_buffers_partial",
    "Vtp.Props.decode_writes_old_buffer",
    "Vtp.Props.decode_again_writes_old_buffer"
   ],
   "note": "False in general, with and without pools (the two witnesses). Proved: all operations but decoding with copies, schemas without singular bytes fields outside of oneofs, and messages and pools from which no buffer can be reached."
  },
  {
   "property": "C60",
   "status": "partial",
   "theorems": [
    "Vtp.Props.match_returns",
    "Vtp.Props.match_sound_partial",
    "Vtp.Props.match_complete_partial",
    "Vtp.Props.match_decides_partial",
    "Vtp.Props.match_items",
    "Vtp.Props.match_runes",
    "Vtp.Props.match_mid_dirs",
    "Vtp.Props.match_sep_class",
    "Vtp.Props.match_star_run",
    "Vtp.Props.match_star_rest",
    "Vtp.Props.match_end_dirs",
    "Vtp.Props.match_alternatives",
    "Vtp.Props.match_groups_partial",
    "Vtp.Props.match_groups_false_partial",
    "Vtp.Props.match_groups_sound_partial",
    "Vtp.Props.match_groups_complete_partial",
    "Vtp.Props.match_groups_decides_partial",
    "Vtp.Props.match_groups_limits"
   ],
   "note": "Against a declarative glob language over runes. Match returns on every input; soundness for all patterns without braces in which ** is not followed by / in the middle of a segment; completeness for patterns without negated classes matching the separator, runs of stars and several wildcards. Each condition is one where the property is false, by witness (match_mid_dirs, match_sep_class, match_star_run, match_star_rest, match_end_dirs, match_alternatives). A pattern with groups matches exactly what the patterns match that come from choosing an alternative in each group (match_groups_partial), so its language is the union of theirs, unless the text of an alternative makes up an item or an ending together with the text before its group; in each such case it is false (match_groups_limits)."
  },
  {
   "property": "C61",
   "status": "partial",
   "theorems": [
    "Vtp.Props.validate_iff",
    "Vtp.Props.match_valid_partial",
    "Vtp.Props.match_valid_fails"
   ],
   "note": "ValidatePattern accepts exactly the well-formed patterns (separate grammar). Patterns whose classes do not contain the characters which the matcher looks for without parsing classes never give an error, braces included. False in general: match_valid_fails exhibits a validated pattern for which Match returns ErrBadPattern."
  },
  {
   "property": "C62",
   "status": "proved",
   "theorems": [
    "Vtp.Props.pool_iff",
    "Vtp.Props.pool_none",
    "Vtp.Props.flags_iff",
    "Vtp.Props.flags_bad",
    "Vtp.Props.select_name",
    "Vtp.Props.select_package"
   ],
   "note": "From the lists of flags on the command line and the option of the message. Matching is pattern.Match (C60); for flags without special characters, and those with one star at the end, select_name and select_package say exactly what is selected."
  },
  {
   "property": "C63",
   "status": "partial",
   "theorems": [
    "Vtp.Props.features_exact",
    "Vtp.Props.features_unknown_partial",
    "Vtp.Props.features_order",
    "Vtp.Props.features_after_all",
    "Vtp.Props.split_plus"
   ],
   "note": "For any sequence of registrations, any order of map iteration, any list. Missing: names after \"all\" are never looked at, so unknown names there are not errors (features_after_all)."
  },
  {
   "property": "C64",
   "status": "partial",
   "theorems": [
    "Vtp.Props.codec_message",
    "Vtp.Props.codec_other_partial",
    "Vtp.Props.drpc_other_panics",
    "Vtp.Props.codec_round_trip_partial",
    "Vtp.Props.codec_round_trip_pooled_partial"
   ],
   "note": "Missing: the dRPC codec panics on values without the methods (drpc_other_panics)."
  },
  {
   "property": "C65",
   "status": "proved",
   "theorems": [
    "Vtp.Props.wireType_table",
    "Vtp.Props.expected_wire_types",
    "Vtp.Props.emitted_wire_types"
   ],
   "note": ""
  },
  {
   "property": "C66",
   "status": "proved",
   "theorems": [
    "Vtp.Props.stream_index"
   ],
   "note": ""
  },
  {
   "property": "C67",
   "status": "proved",
   "theorems": [
    "Vtp.Props.request_routed"
   ],
   "note": "The lookup of grpc-go (handleStream) is specified in Spec/Grpc.lean."
  },
  {
   "property": "C68",
   "status": "proved",
   "theorems": [
    "Vtp.Props.ends_agree",
    "Vtp.Props.ends_agree_unary"
   ],
   "note": ""
  },
  {
   "property": "C69",
   "status": "partial",
   "theorems": [
    "Vtp.Props.handler_names_partial",
    "Vtp.Props.handler_names_clash",
    "Vtp.Props.type_names_partial",
    "Vtp.Props.type_names_clash"
   ],
   "note": "Holds inside of a service. False between services of a package: witnesses for handlers and for types."
  },
  {
   "property": "C70",
   "status": "partial",
   "theorems": [
    "Vtp.Props.memory_decodes_partial",
    "Vtp.Props.overwritten_buffer_partial"
   ],
   "note": "Refinement of the decoder on memory to the decoder on values, with a frame. Messages taken from pools while decoding are C73. Of the runtime it is assumed that it sets no fields when decoding the record of an extension. Missing, as it is false: decoding with copies into messages that have byte slices in buffers, if there are bytes fields neither repeated nor in a oneof (it writes to the buffers, decode_again_writes_old_buffer of C54)."
  },
  {
   "property": "C71",
   "status": "proved",
   "theorems": [
    "Vtp.Props.memory_resets",
    "Vtp.Props.memory_returns"
   ],
   "note": "Refinement of ResetVT and ReturnToVTPool on memory to the same methods on values, with a frame and the exact contents of the pools."
  },
  {
   "property": "C72",
   "status": "proved",
   "theorems": [
    "Vtp.Props.memory_clones"
   ],
   "note": "Refinement of CloneVT on memory, with any choice of pooled messages, to CloneVT on values without pools, up to memory kept for reuse."
  },
  {
   "property": "C73",
   "status": "partial",
   "theorems": [
    "Vtp.Props.memory_decodes_pooled_partial"
   ],
   "note": "Refinement of the decoder on memory, with any choice of pooled messages, to the decoder on values without pools, up to memory kept for reuse. Of the runtime it is assumed that it sets no fields when decoding the record of an extension. Missing, as it is false: decoding with copies into messages that have byte slices in buffers, if there are bytes fields neither repeated nor in a oneof (C54)."
  },
  {
   "property": "C74",
   "status": "partial",
   "theorems": [
    "Vtp.Props.pools_do_not_show_partial",
    "Vtp.Props.pools_unobservable_partial",
    "Vtp.Props.mixed_decoding_shows"
   ],
   "note": "Every run with memory and pools has the outcomes of the run on values without pools, and shows its messages up to memory kept for reuse; the methods do not tell them apart. Programs may decode without copies from buffers which they do not change. Missing, as it is false: programs that decode both with and without copies, if there are bytes fields neither repeated nor in a oneof (mixed_decoding_shows); optional bytes fields of pooled types for the methods (reset_keeps_bytes)."
  },
  {
   "property": "C75",
   "status": "partial",
   "theorems": [
    "Vtp.Props.generated_links_partial",
    "Vtp.Props.marshal_without_size_broken",
    "Vtp.Props.mempool_without_pool_broken",
    "Vtp.Props.mempool_of_other_package_broken",
    "Vtp.Props.same_package_not_generated_broken",
    "Vtp.Props.repeated_group_broken",
    "Vtp.Props.group_in_oneof_broken",
    "Vtp.Props.known_without_wrap_broken"
   ],
   "note": "Proved under stated conditions (Plain); the property is false without each of them, with a witness for each: marshal without size, pooled messages without the feature pool or of other packages, files of a generated package that are not generated, repeated groups and groups in oneofs, well-known types without wrap."
  },
  {
   "property": "C76",
   "status": "proved",
   "theorems": [
    "Vtp.Props.declared_iff",
    "Vtp.Props.declared_once",
    "Vtp.Props.pool_declared_iff"
   ],
   "note": "Membership by the recursion over messages, multiplicity by a permutation with the list of promised methods; assumes what protoc-gen-go guarantees of names and that no well-known types are generated (that is C79)."
  },
  {
   "property": "C77",
   "status": "proved",
   "theorems": [
    "Vtp.Props.file_written_iff",
    "Vtp.Props.files_in_order",
    "Vtp.Props.files_once"
   ],
   "note": ""
  },
  {
   "property": "C78",
   "status": "proved",
   "theorems": [
    "Vtp.Props.file_content_local",
    "Vtp.Props.file_content_depends"
   ],
   "note": "Equality of the recorded declarations and references, not of all text. The dependency on packages of the run is real (witness)."
  },
  {
   "property": "C79",
   "status": "proved",
   "theorems": [
    "Vtp.Props.wrapped_links",
    "Vtp.Props.known_api",
    "Vtp.Props.known_types",
    "Vtp.Props.nested_wrapper_broken",
    "Vtp.Props.unknown_member_crashes",
    "Vtp.Props.foreign_wrapper_broken"
   ],
   "note": "Linking for all requests that meet Wrapped; the exact API for the request of make gen-wkt, computed; conditions of Wrapped shown necessary by witnesses."
  },
  {
   "property": "C80",
   "status": "partial",
   "theorems": [
    "Vtp.Props.unmarshal_order_partial",
    "Vtp.Props.unmarshal_order_pooled_partial",
    "Vtp.Props.unmarshal_order_pooled_same_partial",
    "Vtp.Props.order_of_failures"
   ],
   "note": "Steps of the wire-format specification commute when they go to different places; lifted to any reordering by induction. Missing: what C22 leaves out (groups, extension ranges, map entries with two keys, bools on 32-bit targets). False for inputs with records that are rejected (order_of_failures). With pools the messages are the same up to memory kept for reuse, with the same size, bytes and equality unless a pooled message has an `optional bytes` field (see C51)."
  },
  {
   "property": "C81",
   "status": "partial",
   "theorems": [
    "Vtp.Props.pass_on_partial",
    "Vtp.Props.pass_on_pooled_partial",
    "Vtp.Props.emitted_pass_on_partial"
   ],
   "note": "Induction over the depth of the message, over two schemas at once; with pools by refinement, the order of maps carried through memory kept for reuse. Messages left to the protobuf-go runtime are of the same types in both versions, and the runtime is assumed to write and read back what it has read. Missing: what C23 leaves out (messages that are not Restorable, for which it is wrong; optional bytes of pooled types)."
  },
  {
   "property": "C82",
   "status": "proved",
   "theorems": [
    "Vtp.Props.emitted_size",
    "Vtp.Props.emitted_size_length"
   ],
   "note": "The generator prints syntax trees of a small part of Go with a semantics of its own (Model/Go); the printed methods compute what the interpreter model sizeVT computes. int is unbounded in it."
  },
  {
   "property": "C83",
   "status": "proved",
   "theorems": [
    "Vtp.Props.emitted_sized",
    "Vtp.Props.emitted_marshalTo",
    "Vtp.Props.emitted_marshal",
    "Vtp.Props.emitted_marshal_encodes"
   ],
   "note": "Printed statements simulate the writers of the interpreter model, step by step; calls by induction over the depth of the message. int is unbounded; unknownFields is never a nil slice in the model (an empty one is copied to no effect)."
  },
  {
   "property": "C84",
   "status": "proved",
   "theorems": [
    "Vtp.Props.emitted_unmarshal",
    "Vtp.Props.emitted_unmarshal_exact",
    "Vtp.Props.emitted_unmarshal_returns",
    "Vtp.Props.emitted_unmarshal_decodes",
    "Vtp.Props.missing_field_order"
   ],
   "note": "Printed statements simulate the decoder of the interpreter model, step by step, with int of 32 or 64 bits and block scopes; calls by induction over the length of the input. Receivers without nil wrappers in oneofs (for those see C20); inputs whose length the target can index."
  },
  {
   "property": "C85",
   "status": "partial",
   "theorems": [
    "Vtp.Props.emitted_round_trip_partial",
    "Vtp.Props.emitted_round_trip_pooled_partial"
   ],
   "note": "Through C83, C84 and C23. Missing: what C23 leaves out (messages that are not Restorable, for which it is wrong)."
  },
  {
   "property": "C86",
   "status": "proved",
   "theorems": [
    "Vtp.Props.emitted_equal",
    "Vtp.Props.emitted_equal_message",
    "Vtp.Props.emitted_equal_iff_same",
    "Vtp.Props.emitted_equal_total"
   ],
   "note": "Printed statements simulate the interpreter model of EqualVT, with the identity of the pointers read from the two messages as a parameter and new structs identical to no other; loops by induction over the list, calls by induction over the depth. proto.Equal of foreign types is assumed to be an equivalence that tells nil from non-nil."
  },
  {
   "property": "C87",
   "status": "proved",
   "theorems": [
    "Vtp.Props.emitted_clone",
    "Vtp.Props.emitted_clone_message",
    "Vtp.Props.emitted_memory_clones"
   ],
   "note": "Equality of state transformers on every memory and value, also ill-typed ones; calls by induction over the depth, loops by induction over the elements, each read when it is its turn. The generator decides by local/well-known which types it calls directly; the order of allocation depends on that."
  },
  {
   "property": "C88",
   "status": "partial",
   "theorems": [
    "Vtp.Props.emitted_clone_separate_partial",
    "Vtp.Props.emitted_clone_answers_partial"
   ],
   "note": "Through C87, C45, C46, C72. Missing: pooled types with optional bytes fields (a clone sets them, C45), and what C46 leaves out (proto.Clone of foreign types is assumed to copy)."
  },
  {
   "property": "C89",
   "status": "proved",
   "theorems": [
    "Vtp.Props.emitted_reset",
    "Vtp.Props.emitted_return",
    "Vtp.Props.emitted_from_pool",
    "Vtp.Props.arranged_same"
   ],
   "note": "Equality of state transformers on every memory and value, also ill-typed ones. The fields are in the order the feature finds them in (sorted by number if marshal or equal ran before)."
  },
  {
   "property": "C90",
   "status": "proved",
   "theorems": [
    "Vtp.Props.emitted_reset_blank",
    "Vtp.Props.emitted_return_blank"
   ],
   "note": "Through C89, C50, C53 and C71. The message has nothing but empty messages beyond the lengths of its lists (Clean), as in C50."
  },
  {
   "property": "C91",
   "status": "proved",
   "theorems": [
    "Vtp.Props.no_data_race",
    "Vtp.Props.call_stays_inside",
    "Vtp.Props.code_in_steps",
    "Vtp.Props.shared_return_races",
    "Vtp.Props.common_message_cloned_twice"
   ],
   "note": "Objects are accessed as a whole (finer accesses give fewer conflicts). Methods are those of the memory model (decoding copies); shared_return_races shows that the rule on who may call is needed. code_in_steps ties the code in steps to the methods of C70-C73."
  },
  {
   "property": "C92",
   "status": "proved",
   "theorems": [
    "Vtp.Props.messages_apart",
    "Vtp.Props.others_keep_their_messages",
    "Vtp.Props.common_messages_constant"
   ],
   "note": "Messages that a running call works on are not held by anybody until it returns."
  },
  {
   "property": "C93",
   "status": "proved",
   "theorems": [
    "Vtp.Props.size_on_memory",
    "Vtp.Props.marshal_on_memory",
    "Vtp.Props.equal_on_memory",
    "Vtp.Props.equal_itself"
   ],
   "note": "Buffers lent to the message have the contents they have in memory. EqualVT of two messages that share some but not all objects is not covered. The depth to which the code recurses is any number above the depth of the value; the buffer that MarshalVT allocates and fills is local to the call and not part of memory."
  },
  {
   "property": "C94",
   "status": "proved",
   "theorems": [
    "Vtp.Props.lookers_change_nothing",
    "Vtp.Props.lookers_do_not_race",
    "Vtp.Props.lookers_see_the_value",
    "Vtp.Props.lookers_can_look"
   ],
   "note": "Messages without memory of others (decoding copies), as in C91. A call begins only if the messages stand for values; lookers_can_look shows that they do whenever slices of bytes lie within their arrays, pointers to scalars point to scalars and foreign messages are messages."
  },
  {
   "property": "C95",
   "status": "partial",
   "theorems": [
    "Vtp.Props.call_alone_partial",
    "Vtp.Props.call_returns_partial",
    "Vtp.Props.pools_as_new_partial",
    "Vtp.Props.values_kept",
    "Vtp.Props.call_can_end",
    "Vtp.Props.calls_end"
   ],
   "note": "Programs call methods on messages for which they do not panic, with surroundings of the library; their own code leaves messages in states that stand for values. Values up to memory kept for reuse. Missing: decoding without copies."
  },
  {
   "property": "C96",
   "status": "proved",
   "theorems": [
    "Vtp.Props.accepted_input"
   ],
   "note": "All byte strings, safe and unsafe decoding, with and without pools, every receiver whose oneofs hold no nil members. Message types with extension ranges are C36."
  },
  {
   "property": "C97",
   "status": "partial",
   "theorems": [
    "Vtp.Props.accepted_written",
    "Vtp.Props.accepted_read_back_partial",
    "Vtp.Props.accepted_rewritten_partial",
    "Vtp.Props.accepted_written_pooled",
    "Vtp.Props.accepted_read_back_pooled_partial",
    "Vtp.Props.emitted_written",
    "Vtp.Props.emitted_read_back_partial",
    "Vtp.Props.entry_not_read_back",
    "Vtp.Props.extension_not_written"
   ],
   "note": "Writing succeeds for any accepted input, with and without pools, in types without extension ranges; with them it is false (extension_not_written). Reading back and writing again are proved, also for kept unknown fields that are no well-formed records, if messages in maps have no required fields; without that it is false (entry_not_read_back). With pools optional bytes fields of pooled messages are excluded. The runtime is assumed to write and read back the foreign messages it decoded."
  },
  {
   "property": "C98",
   "status": "partial",
   "theorems": [
    "Vtp.Props.decode_memory_partial",
    "Vtp.Props.decode_memory_strings_partial",
    "Vtp.Props.strings_memory",
    "Vtp.Props.struct_memory",
    "Vtp.Props.emitted_memory_partial",
    "Vtp.Props.emitted_struct_memory"
   ],
   "note": "Linear, for all inputs, receivers and outcomes, safe and unsafe, with and without pools, in schemas whose maps have numbers as keys and values. At most quadratic with strings and bytes in maps, and not less: map<string, string> accepts inputs of 50n bytes which make messages of size n^2 (strings_memory). False for maps with messages: google.protobuf.Struct of types/known/structpb accepts inputs of 60n bytes which make messages of size 2^n, since values of map entries may reach beyond the entry and are read again (struct_memory). The capacity of lists of scalars is C38. Foreign messages: the runtime is assumed to keep to the bound."
  },
  {
   "property": "C99",
   "status": "proved",
   "theorems": [
    "Vtp.Props.nesting_bound",
    "Vtp.Props.nesting_reached",
    "Vtp.Props.nesting_unlimited"
   ],
   "note": "The bound is attained. The depth of the stack in bytes is not modelled; a Go program whose stack outgrows its limit ends and cannot recover."
  },
  {
   "property": "C100",
   "status": "proved",
   "theorems": [
    "Vtp.Props.decoded_levels",
    "Vtp.Props.size_levels",
    "Vtp.Props.marshal_levels",
    "Vtp.Props.equal_levels",
    "Vtp.Props.clone_levels",
    "Vtp.Props.reset_levels",
    "Vtp.Props.decoded_calls",
    "Vtp.Props.emitted_levels"
   ],
   "note": "The depth of what is decoded is bounded for the printed code as well (emitted_levels). Assumed of proto.Unmarshal for foreign types: it makes a level from no less than two bytes."
  },
  {
   "property": "C101",
   "status": "partial",
   "theorems": [
    "Vtp.Props.size_memory",
    "Vtp.Props.rewritten_size_partial",
    "Vtp.Props.rewritten_size_strings_partial",
    "Vtp.Props.struct_rewritten",
    "Vtp.Props.strings_rewritten",
    "Vtp.Props.emitted_rewritten_partial",
    "Vtp.Props.emitted_struct_rewritten"
   ],
   "note": "Linear in schemas whose maps have numbers as keys and values, for all inputs, receivers and outcomes, with and without pools. At most quadratic with strings and bytes in maps, and not linear (strings_rewritten). False for maps with messages: google.protobuf.Struct accepts inputs of 60n bytes and writes 2^n - 1 bytes for what it decoded from them (struct_rewritten). Foreign messages: the runtime is assumed to keep to the bounds."
  },
  {
   "property": "C102",
   "status": "partial",
   "theorems": [
    "Vtp.Props.clone_memory",
    "Vtp.Props.reset_memory",
    "Vtp.Props.return_memory",
    "Vtp.Props.cycle_memory_partial",
    "Vtp.Props.recycled_memory_partial",
    "Vtp.Props.recycled_memory_strings_partial"
   ],
   "note": "The first two sentences are proved for all messages. The last one is proved for schemas whose maps have numbers as keys and values (for reuse by ResetVT also with strings and bytes in maps, at quadratic cost of each input), and is false for others as C98 is. For sequences of inputs, each message taken from a pool is one of bounded size. Capacity of lists of scalars beyond their length is not represented. Foreign messages: the runtime is assumed to keep to the bounds."
  }
 ]
}