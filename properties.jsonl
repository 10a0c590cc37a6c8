{"id": "C01", "title": "Varint size and encoding agree", "statement": "For every 64-bit value v, EncodeVarint(buf, off, v) writes exactly SizeOfVarint(v) bytes, ending just before off, those bytes are the minimal base-128 encoding of v, every other byte of buf is unchanged and the returned offset is off-SizeOfVarint(v); if there is not enough room it panics instead of writing elsewhere silently.", "quantifier": "all uint64 values, all buffers, all offsets", "why_tests_cant": "2^64 values times all buffers; boundary errors hide at 2^7k", "anchors": ["protohelpers/protohelpers.go:EncodeVarint", "protohelpers/protohelpers.go:SizeOfVarint"]}
{"id": "C02", "title": "Varint round trip", "statement": "Decoding the bytes written by EncodeVarint(v), with anything before and after them, yields v and stops right after them.", "quantifier": "all uint64 values, all prefixes and suffixes", "why_tests_cant": "2^64 values and unbounded contexts", "anchors": ["protohelpers/protohelpers.go:EncodeVarint", "features/unmarshal/unmarshal.go:decodeVarint"]}
{"id": "C03", "title": "Zigzag", "statement": "sint32/sint64 zigzag encode followed by decode is the identity, and SizeOfZigzag applied to the sign-extended value is the length of the varint actually written for both 32- and 64-bit kinds.", "quantifier": "all int32 and int64 values", "why_tests_cant": "2^64 values; the 32-bit size uses the 64-bit formula", "anchors": ["protohelpers/protohelpers.go:SizeOfZigzag", "features/marshal/marshalto.go:field Sint32Kind/Sint64Kind", "features/unmarshal/unmarshal.go:fieldItem Sint32Kind/Sint64Kind"]}
{"id": "C04", "title": "Non-minimal varints and truncation", "statement": "A varint of up to 10 bytes decodes to its value reduced modulo 2^w for a w-bit destination, whether minimal or not, and the decoder consumes exactly the bytes up to and including the first byte below 0x80.", "quantifier": "all byte strings, all destination widths", "why_tests_cant": "unbounded inputs", "anchors": ["features/unmarshal/unmarshal.go:decodeVarint"]}
{"id": "C05", "title": "Varint overflow is rejected", "statement": "Decoding returns an overflow error whenever a varint does not fit in 64 bits (more than ten bytes, or a tenth byte above 1).", "quantifier": "all byte strings", "why_tests_cant": "attacker-chosen inputs; a test samples a few", "anchors": ["features/unmarshal/unmarshal.go:decodeVarint", "protohelpers/protohelpers.go:Skip", "protohelpers/protohelpers.go:ErrIntOverflow"]}
{"id": "C06", "title": "Skip is total and safe", "statement": "For every byte string Skip terminates without panic (no index out of range) and returns an error or a strictly positive offset, on 32- and 64-bit int.", "quantifier": "all byte strings, both int widths", "why_tests_cant": "unbounded inputs", "anchors": ["protohelpers/protohelpers.go:Skip"]}
{"id": "C07", "title": "Skip is exact on well-formed records", "statement": "If the input starts with a well-formed record (any field number, any wire type, groups nested to any depth) Skip returns exactly the length of that record, whatever follows.", "quantifier": "all well-formed records, all suffixes, all nesting depths", "why_tests_cant": "unbounded nesting and payloads", "anchors": ["protohelpers/protohelpers.go:Skip"]}
{"id": "C08", "title": "Skip rejects non-records", "statement": "If Skip returns a length not exceeding the input, then that prefix is a well-formed sequence of tags and payloads with balanced group markers; stray end-group, illegal wire type, truncation and negative lengths give errors.", "quantifier": "all byte strings", "why_tests_cant": "unbounded inputs", "anchors": ["protohelpers/protohelpers.go:Skip"]}
{"id": "C09", "title": "Field keys", "statement": "The key bytes emitted for (field number, wire type) decode back to the same field number and wire type, and the static key size used by SizeVT is the number of bytes emitted.", "quantifier": "all field numbers 1..2^29-1 and wire types 0..5", "why_tests_cant": "3*10^9 combinations", "anchors": ["features/marshal/marshalto.go:encodeKey", "generator/helpers.go:KeySize", "generator/helpers.go:ProtoWireType"]}
{"id": "C10", "title": "SizeVT equals marshalled length", "statement": "For every well-typed message of every schema, if MarshalVT (or MarshalVTStrict) succeeds the result has length SizeVT().", "quantifier": "all schemas, all messages, any nesting, any map iteration order", "why_tests_cant": "every schema generates new code; unbounded messages", "anchors": ["features/size/size.go:field", "features/size/size.go:message", "features/marshal/marshalto.go:message"]}
{"id": "C11", "title": "MarshalToSizedBufferVT writes the tail", "statement": "MarshalToSizedBufferVT(buf) with len(buf) >= SizeVT() writes the encoding into the last SizeVT() bytes, leaves the other bytes unchanged, returns SizeVT() and does not panic; with a smaller buffer it panics rather than returning success.", "quantifier": "all schemas, messages, buffers", "why_tests_cant": "unbounded buffers and messages", "anchors": ["features/marshal/marshalto.go:message"]}
{"id": "C12", "title": "MarshalToVT writes a prefix", "statement": "MarshalToVT(buf) writes the encoding at the start of buf, leaves bytes past SizeVT() alone, returns SizeVT(); a short buffer panics.", "quantifier": "all schemas, messages, buffers", "why_tests_cant": "unbounded", "anchors": ["features/marshal/marshalto.go:message"]}
{"id": "C13", "title": "MarshalVT produces the protobuf wire format", "statement": "MarshalVT returns the concatenation, in field-number order with oneofs after the other fields, of the standard encodings of the populated fields, followed by the unknown fields.", "quantifier": "all schemas, messages", "why_tests_cant": "a per-schema statement over unbounded messages", "anchors": ["features/marshal/marshalto.go:field", "features/marshal/marshalto.go:message", "features/marshal/marshalto.go:mapField", "features/marshal/marshalto.go:marshalBackward"]}
{"id": "C14", "title": "MarshalVTStrict order", "statement": "MarshalVTStrict returns the same field encodings with all fields, oneof members included, in ascending field-number order; it is a permutation of the records MarshalVT emits.", "quantifier": "all schemas, messages", "why_tests_cant": "unbounded", "anchors": ["features/marshal/marshalto.go:message"]}
{"id": "C15", "title": "Map iteration order does not matter", "statement": "Whatever order Go iterates maps in, SizeVT is unchanged, MarshalVT produces a permutation of the same records, and decoding gives equal maps.", "quantifier": "all messages, all iteration orders (schedules)", "why_tests_cant": "Go randomises map iteration; tests see a few orders", "anchors": ["features/size/size.go:field", "features/marshal/marshalto.go:field"]}
{"id": "C16", "title": "Required fields on marshal", "statement": "MarshalVT returns an error if and only if some required field of the message or of a message it emits is unset; it never panics or emits partial output in that case.", "quantifier": "all schemas, messages", "why_tests_cant": "unbounded nesting", "anchors": ["features/marshal/marshalto.go:field"]}
{"id": "C17", "title": "Implicit presence", "statement": "A field with implicit presence contributes bytes if and only if it is non-zero/non-empty; a field with explicit presence if and only if it is set; decoding restores the value exactly.", "quantifier": "all field kinds and values", "why_tests_cant": "all values incl. -0.0 and NaN", "anchors": ["features/size/size.go:field", "features/marshal/marshalto.go:field"]}
{"id": "C18", "title": "Nil message", "statement": "A nil message has size 0, marshals to nothing, clones to nil, is equal only to nil, and ResetVT/ReturnToVTPool on it do nothing.", "quantifier": "all schemas", "why_tests_cant": "per generated type", "anchors": ["features/size/size.go:message", "features/marshal/marshalto.go:message", "features/equal/equal.go:message", "features/clone/clone.go:processMessage", "features/pool/pool.go:message"]}
{"id": "C20", "title": "UnmarshalVT never panics", "statement": "UnmarshalVT on any byte string returns nil or an error; it never panics or indexes out of range, for every schema and every starting message.", "quantifier": "all schemas, byte strings, starting messages", "why_tests_cant": "attacker-chosen inputs", "anchors": ["features/unmarshal/unmarshal.go:message", "features/unmarshal/unmarshal.go:field", "features/unmarshal/unmarshal.go:fieldItem", "features/unmarshal/unmarshal.go:mapField"]}
{"id": "C21", "title": "UnmarshalVT terminates", "statement": "UnmarshalVT terminates on every input, every record consumes at least one byte and recursion is bounded by the input length.", "quantifier": "all schemas, byte strings", "why_tests_cant": "liveness over all inputs", "anchors": ["features/unmarshal/unmarshal.go:message"]}
{"id": "C22", "title": "UnmarshalVT accepts every valid encoding", "statement": "Every byte string which is a valid protobuf encoding under the schema (non-minimal varints, any field order, packed or unpacked, repeated singular fields, unknown fields, split sub-messages) is accepted and yields the merged message the wire format defines.", "quantifier": "all schemas, all valid encodings", "why_tests_cant": "infinitely many encodings per message", "anchors": ["features/unmarshal/unmarshal.go:message", "features/unmarshal/unmarshal.go:field", "features/unmarshal/unmarshal.go:fieldItem"]}
{"id": "C23", "title": "Round trip", "statement": "UnmarshalVT(MarshalVT(m)) into a fresh message succeeds and gives a message equal to m (empty/nil collections identified), including unknown fields.", "quantifier": "all schemas, all messages", "why_tests_cant": "unbounded messages", "anchors": ["features/marshal/marshalto.go:message", "features/unmarshal/unmarshal.go:message"]}
{"id": "C24", "title": "Re-marshalling is stable", "statement": "MarshalVT(UnmarshalVT(MarshalVT(m))) = MarshalVT(m) up to map order; sizes agree.", "quantifier": "all schemas, messages", "why_tests_cant": "unbounded", "anchors": ["features/marshal/marshalto.go:message", "features/unmarshal/unmarshal.go:message"]}
{"id": "C25", "title": "Concatenation is merging", "statement": "If a decodes into m giving m1 and b decodes into m1 giving m2, then a++b decodes into m giving m2.", "quantifier": "all schemas, byte strings, messages", "why_tests_cant": "unbounded", "anchors": ["features/unmarshal/unmarshal.go:message"]}
{"id": "C26", "title": "Last one wins, repeated append, sub-messages merge", "statement": "A later occurrence of a singular scalar replaces the earlier one, repeated fields append in order, singular sub-messages merge field by field.", "quantifier": "all schemas, all sequences of occurrences", "why_tests_cant": "histories of occurrences", "anchors": ["features/unmarshal/unmarshal.go:fieldItem"]}
{"id": "C27", "title": "Unknown fields are preserved", "statement": "Records with field numbers not in the schema are kept byte for byte, in order, survive re-marshalling, and do not affect known fields; with ignore_unknown_fields they are dropped without other effect.", "quantifier": "all schemas, byte strings", "why_tests_cant": "unbounded", "anchors": ["features/unmarshal/unmarshal.go:message", "features/marshal/marshalto.go:message", "generator/generatedfile.go:ShouldIgnoreUnknownFields"]}
{"id": "C28", "title": "Truncation is rejected", "statement": "No strict prefix of an encoding that cuts inside a record is accepted; a record whose declared length exceeds the input is an error.", "quantifier": "all inputs and cut points", "why_tests_cant": "crash points: every cut", "anchors": ["features/unmarshal/unmarshal.go:message", "features/unmarshal/unmarshal.go:fieldItem"]}
{"id": "C29", "title": "Oneof", "statement": "After decoding, a oneof holds the last member present on the wire (message members of the same number merge), the other members are unset; marshalling emits exactly the member set.", "quantifier": "all schemas, byte strings", "why_tests_cant": "histories of occurrences", "anchors": ["features/unmarshal/unmarshal.go:fieldItem", "features/marshal/marshalto.go:message", "features/size/size.go:message"]}
{"id": "C30", "title": "Packed and unpacked", "statement": "A repeated numeric field may be supplied packed, unpacked, or in any mixture of chunks; the decoded list is the concatenation.", "quantifier": "all chunkings of all lists", "why_tests_cant": "unbounded chunkings", "anchors": ["features/unmarshal/unmarshal.go:field"]}
{"id": "C31", "title": "Packed payloads stay in their record", "statement": "A packed record whose last element runs over the record's end is rejected.", "quantifier": "all byte strings", "why_tests_cant": "attacker inputs", "anchors": ["features/unmarshal/unmarshal.go:field"]}
{"id": "C32", "title": "Map decoding", "statement": "A map entry record inserts or replaces the entry for its key, key and value in any order, missing key or value defaulting to zero/empty, unknown entry fields ignored.", "quantifier": "all schemas, entries", "why_tests_cant": "unbounded", "anchors": ["features/unmarshal/unmarshal.go:fieldItem IsMap", "features/unmarshal/unmarshal.go:mapField"]}
{"id": "C33", "title": "Wire type mismatch", "statement": "A known field (or map key/value) with the wrong wire type is an error.", "quantifier": "all schemas, byte strings", "why_tests_cant": "unbounded", "anchors": ["features/unmarshal/unmarshal.go:field", "features/unmarshal/unmarshal.go:fieldItem"]}
{"id": "C34", "title": "Groups", "statement": "A group field marshalled by MarshalVT is decoded by UnmarshalVT.", "quantifier": "all schemas with groups, all messages", "why_tests_cant": "unbounded", "anchors": ["features/unmarshal/unmarshal.go:fieldItem GroupKind", "features/marshal/marshalto.go:field GroupKind"]}
{"id": "C35", "title": "Required fields on unmarshal", "statement": "UnmarshalVT returns the required-field error iff the input is otherwise decodable and some required field of the message is absent from it, for any number of required fields.", "quantifier": "all schemas (any number of required fields), byte strings", "why_tests_cant": "the bit set spans several words only in big schemas", "anchors": ["features/unmarshal/unmarshal.go:field", "features/unmarshal/unmarshal.go:message"]}
{"id": "C36", "title": "Extensions survive", "statement": "Fields in extension ranges do not disturb the other fields and survive decode/encode.", "quantifier": "all schemas with extension ranges, byte strings", "why_tests_cant": "depends on record order", "anchors": ["features/unmarshal/unmarshal.go:message", "features/marshal/marshalto.go:message"]}
{"id": "C37", "title": "Field numbers", "statement": "A tag whose field number is 0, negative or beyond 2^29-1 is rejected.", "quantifier": "all byte strings", "why_tests_cant": "attacker inputs", "anchors": ["features/unmarshal/unmarshal.go:message"]}
{"id": "C38", "title": "Decode allocation is bounded by input", "statement": "The element count used to preallocate a packed field never exceeds the bytes of the record and equals the number of elements appended when the record is well formed.", "quantifier": "all packed records", "why_tests_cant": "unbounded inputs", "anchors": ["features/unmarshal/unmarshal.go:field"]}
{"id": "C40", "title": "EqualVT is an equivalence", "statement": "EqualVT is symmetric and transitive, and reflexive on messages without NaN (always on the same pointer).", "quantifier": "all schemas, messages", "why_tests_cant": "pairs/triples of unbounded messages", "anchors": ["features/equal/equal.go:message", "features/equal/equal.go:field"]}
{"id": "C41", "title": "EqualVT agrees with content", "statement": "EqualVT is true exactly when the messages have the same content: same presence, same scalars, same elements in order, same map entries, same set oneof members, same unknown bytes (NaN equals nothing, except behind pointers the messages share).", "quantifier": "all schemas, pairs of messages", "why_tests_cant": "unbounded pairs", "anchors": ["features/equal/equal.go:message", "features/equal/equal.go:compareScalar", "features/equal/equal.go:compareBytes", "features/equal/equal.go:compareCall"]}
{"id": "C42", "title": "EqualVT and marshalling", "statement": "Messages that are EqualVT marshal to the same bytes (up to map order and signed zeros); EqualVT never panics.", "quantifier": "all schemas, pairs", "why_tests_cant": "unbounded pairs", "anchors": ["features/equal/equal.go:message", "features/marshal/marshalto.go:message"]}
{"id": "C45", "title": "CloneVT is equal", "statement": "CloneVT(m) is EqualVT to m (NaN aside), marshals to the same bytes and leaves m unchanged.", "quantifier": "all schemas, messages", "why_tests_cant": "unbounded", "anchors": ["features/clone/clone.go:processMessage", "features/clone/clone.go:cloneField"]}
{"id": "C46", "title": "CloneVT is deep", "statement": "No mutation reachable through the clone affects the original, and vice versa.", "quantifier": "all schemas, messages, mutation sequences", "why_tests_cant": "all later histories", "anchors": ["features/clone/clone.go:cloneField", "features/clone/clone.go:body"]}
{"id": "C47", "title": "Unsafe unmarshal agrees with safe", "statement": "UnmarshalVTUnsafe accepts the same inputs and gives the same content as UnmarshalVT as long as the buffer is not modified.", "quantifier": "all schemas, byte strings", "why_tests_cant": "unbounded", "anchors": ["features/unmarshal/unmarshal.go:fieldItem unsafe"]}
{"id": "C48", "title": "Safe unmarshal does not alias the input", "statement": "After UnmarshalVT, changing the input buffer does not change the message; after UnmarshalVTUnsafe the aliased ranges are exactly the string/bytes payloads inside the input buffer.", "quantifier": "all schemas, byte strings, later buffer writes", "why_tests_cant": "later histories", "anchors": ["features/unmarshal/unmarshal.go:fieldItem", "features/unmarshal/unmarshal.go:mapField"]}
{"id": "C50", "title": "Pooled message is empty", "statement": "A message obtained from the pool has the content of a new message, whatever was done to it before it was returned (fields set, decoded into, failed decodes).", "quantifier": "all schemas, all histories", "why_tests_cant": "histories of use", "anchors": ["features/pool/pool.go:message"]}
{"id": "C51", "title": "Pooled decode equals fresh decode", "statement": "Decoding into a message taken from the pool (reusing spare capacity and pooled sub-messages) gives the same content as decoding into a new message.", "quantifier": "all schemas, histories, byte strings", "why_tests_cant": "cross-request leakage appears only for particular histories", "anchors": ["features/pool/pool.go:message", "features/unmarshal/unmarshal.go:fieldItem pool branches"]}
{"id": "C52", "title": "Pool exclusivity", "statement": "If every message is returned at most once per acquisition, no message is handed to two holders at the same time, including sub-messages.", "quantifier": "all interleavings of get/put/use", "why_tests_cant": "schedules", "anchors": ["features/pool/pool.go:message"]}
{"id": "C53", "title": "ResetVT empties", "statement": "After ResetVT the message marshals to nothing and is equal to a new message.", "quantifier": "all schemas, messages", "why_tests_cant": "unbounded", "anchors": ["features/pool/pool.go:message"]}
{"id": "C54", "title": "Pool hazards", "statement": "Unsafe-decoded byte fields never cause later decodes to write into the caller's old buffer.", "quantifier": "all histories", "why_tests_cant": "histories across pool reuse", "anchors": ["features/pool/pool.go:message", "features/unmarshal/unmarshal.go:fieldItem BytesKind"]}
{"id": "C60", "title": "Glob matching", "statement": "pattern.Match(pattern, name) is true exactly when name belongs to the glob language of pattern: ? one non-separator character, * any run of non-separators, ** any run including separators, [..] classes, {a,b} alternatives, backslash escapes.", "quantifier": "all patterns and names", "why_tests_cant": "infinite language", "anchors": ["generator/pattern/match.go:Match", "generator/pattern/match.go:doMatchWithSeparator"]}
{"id": "C61", "title": "Validated patterns", "statement": "A pattern accepted by ValidatePattern (hence by the pool / ignoreUnknownFields flags) never makes Match return ErrBadPattern.", "quantifier": "all patterns and names", "why_tests_cant": "infinite", "anchors": ["generator/pattern/match.go:ValidatePattern", "generator/generator.go:ObjectSet.Set", "generator/generator.go:ObjectSet.Contains"]}
{"id": "C62", "title": "Pool selection", "statement": "A message is pooled iff it is not excluded and is matched by the command line set or has the mempool option; excluded messages are never pooled.", "quantifier": "all configurations and option settings", "why_tests_cant": "all combinations", "anchors": ["generator/generatedfile.go:ShouldPool", "generator/generator.go:Config"]}
{"id": "C63", "title": "Feature selection", "statement": "The features generated for a feature list are exactly those named (all of them for 'all'), each once, in a fixed order independent of the list's order; unknown names are errors.", "quantifier": "all feature lists", "why_tests_cant": "unbounded lists", "anchors": ["generator/features.go:findFeatures"]}
{"id": "C64", "title": "Codec dispatch", "statement": "The gRPC and dRPC codecs marshal and unmarshal exactly as the message's own VT methods and report an error for values without them.", "quantifier": "all values", "why_tests_cant": "all dynamic types", "anchors": ["codec/grpc/grpc_codec.go:Codec", "codec/drpc/drpc_codec.go:Marshal"]}
{"id": "C65", "title": "Field wire types", "statement": "The wire type emitted for each field kind is the one the decoder expects for it.", "quantifier": "all 18 kinds", "why_tests_cant": "finite, but the statement couples two generators", "anchors": ["generator/helpers.go:ProtoWireType", "features/marshal/marshalto.go:field", "features/unmarshal/unmarshal.go:field"]}
{"id": "C66", "title": "Stream descriptors of stubs", "statement": "The stub of a streaming method opens its stream with the entry of ServiceDesc.Streams that belongs to this method (index in range, name, handler and streaming directions), whatever the mixture and order of unary and streaming methods.", "quantifier": "all services, methods", "why_tests_cant": "all mixtures of methods", "anchors": ["features/grpc/grpc.go:genService", "features/grpc/grpc.go:genClientMethod"]}
{"id": "C67", "title": "RPCs reach their method", "statement": "With any number of services registered, a request sent by a generated stub is routed to the handler generated for the same method, which calls the implementation's method of this name exactly once.", "quantifier": "all sets of services", "why_tests_cant": "all sets of services and names", "anchors": ["features/grpc/grpc.go:genService", "features/grpc/grpc.go:genClientMethod", "features/grpc/grpc.go:genServerMethod"]}
{"id": "C68", "title": "Both ends of an RPC agree", "statement": "The message types and numbers of messages sent by generated client code are those received by generated server code and vice versa, for all four kinds of methods; received messages are pooled exactly if their type is.", "quantifier": "all services, methods, pool settings", "why_tests_cant": "couples two generators", "anchors": ["features/grpc/grpc.go:genClientMethod", "features/grpc/grpc.go:genServerMethod", "generator/generatedfile.go:Alloc"]}
{"id": "C69", "title": "No name clashes in stubs", "statement": "The handlers and types declared by the gRPC stubs of a package have different names.", "quantifier": "all sets of services", "why_tests_cant": "all sets of names", "anchors": ["features/grpc/grpc.go:genServerMethod", "features/grpc/grpc.go:genService", "features/grpc/grpc.go:unexport"]}
{"id": "C70", "title": "Memory holds what decoding gives", "statement": "UnmarshalVT/UnmarshalVTUnsafe on memory with pointers, slices sharing arrays and spare capacity returns the result that the decoder gives on plain values, leaves the message representing exactly that value (on failure too), and changes the contents of no other message. If the buffer of UnmarshalVTUnsafe is overwritten later, the message represents what the input positions recorded for its strings and bytes then contain.", "quantifier": "all messages and their layouts in memory, inputs, other messages, later buffer contents", "why_tests_cant": "all aliasing patterns between arrays, spare capacities and buffers", "anchors": ["features/unmarshal/unmarshal.go:message", "features/unmarshal/unmarshal.go:fieldItem", "features/unmarshal/unmarshal.go:mapField"]}
{"id": "C71", "title": "Memory holds what ResetVT gives", "statement": "ResetVT and ReturnToVTPool on memory return or panic exactly when they do on plain values; afterwards the message represents the value that resetting gives, the pools have received exactly the messages that resetting values says, in that order and with those contents, none sharing memory with another message, and every other message keeps its contents.", "quantifier": "all messages and their layouts in memory (spare capacity, shared arrays of byte slices, lent buffers), other messages, pools", "why_tests_cant": "the effects on all other reachable memory and on all pools must hold for every layout", "anchors": ["features/pool/pool.go:message"]}
{"id": "C72", "title": "Memory holds what CloneVT gives, whatever the pools hand out", "statement": "CloneVT on memory, with any messages handed out by the pools, returns or panics exactly when CloneVT on plain values without pools does; the memory returned represents the value which that gives (up to memory kept for reuse), shares nothing with the original, other messages or the pools, and everything else keeps its contents.", "quantifier": "all messages and layouts, all contents of the pools and choices of what they hand out", "why_tests_cant": "which pooled message is handed out depends on scheduling and the garbage collector; the effect on all other memory must hold for every layout", "anchors": ["features/clone/clone.go:message"]}
{"id": "C73", "title": "Memory holds what decoding gives, whatever the pools hand out", "statement": "UnmarshalVT/UnmarshalVTUnsafe on memory, with any messages handed out by the pools for sub-messages and into a message that may come from a pool, returns the result that the decoder generated without pools gives on plain values; the message then represents the value which that gives (up to memory kept for reuse), on failure too, shares nothing with other messages or the pools, and everything else keeps its contents.", "quantifier": "all messages and layouts, inputs, contents of the pools and choices of what they hand out", "why_tests_cant": "which pooled message is handed out depends on scheduling and the garbage collector; the effect on all other memory must hold for every layout", "anchors": ["features/unmarshal/unmarshal.go:message", "features/unmarshal/unmarshal.go:fieldItem", "features/pool/pool.go:message"]}
{"id": "C74", "title": "Pools do not show", "statement": "In a program that takes messages from the pools, returns them, resets, decodes into, clones and changes them in any order, without using a message after returning it, every call returns, fails or panics exactly as it does in the same program without pools, whatever the pools hand out or lose; and at any time SizeVT, MarshalVT and EqualVT of the messages it has give what they give without pools.", "quantifier": "all programs (sequences of calls and of changes of messages), inputs, choices of what the pools hand out, losses of pooled messages", "why_tests_cant": "histories across reuse; which pooled message is handed out depends on scheduling and the garbage collector", "anchors": ["features/pool/pool.go:message", "features/unmarshal/unmarshal.go:message", "features/clone/clone.go:message", "features/marshal/marshalto.go:message", "features/equal/equal.go:message"]}
{"id": "C75", "title": "Generated code refers only to what exists", "statement": "Every method and every pool that a generated file uses exists: declared in a file of the same run, in code generated before, in package types/known or by protoc-gen-go; every method it declares has as receiver a type of its own package. So the output compiles whatever the messages, features and files chosen.", "quantifier": "all requests (files, messages nested to any depth, fields, services), features, flags, earlier output", "why_tests_cant": "the combinations of schema features, options and selected features are unbounded; the test protos cover some", "anchors": ["generator/generator.go:generateFile", "generator/generatedfile.go:IsLocalMessage", "generator/generatedfile.go:ShouldPool", "generator/generatedfile.go:WellKnownTypeMap", "features/marshal/marshalto.go:message", "features/unmarshal/unmarshal.go:decodeMessage", "features/pool/pool.go:message"]}
{"id": "C76", "title": "Every message gets its methods, once", "statement": "A generated file declares a method iff one of the selected features promises it for a message of the file (declared at any depth, map entries excepted; for pools only selected messages) or for a member of a oneof; no method is declared twice.", "quantifier": "all requests, features, flags", "why_tests_cant": "all nestings of messages and sets of features", "anchors": ["generator/generator.go:generateFile", "features/marshal/marshalto.go:message", "features/unmarshal/unmarshal.go:message", "features/equal/equal.go:message", "features/clone/clone.go:processMessage", "features/pool/pool.go:message"]}
{"id": "C77", "title": "Which files are written", "statement": "A file is written iff protoc asked for it and empty files are allowed or one of the selected features applies to it (it has a message, a pooled message, a service); its name is the prefix of the proto file with _vtproto.pb.go; files come in the order of the request, none twice.", "quantifier": "all requests, features, flags", "why_tests_cant": "all requests", "anchors": ["generator/generator.go:Generate", "generator/generator.go:generateFile"]}
{"id": "C78", "title": "Output for a file does not depend on the others", "statement": "What is generated for a file depends only on the file, flags, features and on which of the packages it refers to are generated in the same run: other files may be added, left out or reordered.", "quantifier": "all pairs of requests", "why_tests_cant": "relates two runs", "anchors": ["generator/generator.go:NewGenerator", "generator/generator.go:Generate", "generator/generatedfile.go:IsLocalMessage"]}
{"id": "C79", "title": "Package types/known fits the generator", "statement": "Files written with the flag wrap for well-known types link, and for the seven files of make gen-wkt they declare exactly the wrapper types and methods that code generated for other packages relies on for well-known types.", "quantifier": "all requests of well-known types; all types and methods", "why_tests_cant": "couples the tables in the generator with generated code", "anchors": ["generator/generatedfile.go:wellKnownTypes", "generator/generatedfile.go:wellKnownFields", "generator/generator.go:generateFile", "Makefile:37-49"]}
{"id": "C80", "title": "The order of fields on the wire does not matter", "statement": "UnmarshalVT gives the same message and error for two inputs that consist of the same records if the records that go to the same struct field (one field, or the members of one oneof), and the unknown ones among themselves, come in the same order.", "quantifier": "all pairs of inputs, messages decoded into", "why_tests_cant": "relates all reorderings of an input, whose number is unbounded", "anchors": ["features/unmarshal/unmarshal.go:message", "features/unmarshal/unmarshal.go:fieldItem"]}
{"id": "C81", "title": "Older programs pass on fields they do not know", "statement": "If a program built from an older version of a schema (fields, oneof members or extension ranges missing at any depth, unknown fields kept) reads with UnmarshalVT what a program built from the newer version wrote, and writes it again with MarshalVT or MarshalVTStrict, under whatever iteration order of maps, it succeeds, writes as many bytes, and the newer program reads these to a message EqualVT to the original (without NaN) with the same unknown fields: nothing is lost, also inside lists, maps and oneofs.", "quantifier": "all pairs of older and newer schemas, messages, field orders of both writers and map orders", "why_tests_cant": "relates two schemas and three runs of generated code, for all of each", "anchors": ["features/unmarshal/unmarshal.go:message", "features/unmarshal/unmarshal.go:fieldItem", "features/marshal/marshalto.go:message"]}
{"id": "C82", "title": "The printed SizeVT is the one described", "statement": "The statements that features/size prints for a message type, executed as Go code, terminate on every value of the generated type (nil, typed nil wrappers in oneofs included) without a panic and return the size of the message's encoding.", "quantifier": "all schemas, generator settings (local, well-known and foreign types), messages", "why_tests_cant": "the printed code is different for each schema", "anchors": ["features/size/size.go:field", "features/size/size.go:messageSize", "features/size/size.go:message"]}
{"id": "C83", "title": "The printed MarshalVT is the one described", "statement": "The statements that features/marshal prints for a message type (MarshalVT, MarshalToVT, MarshalToSizedBufferVT and the Strict ones, and the methods of oneof wrappers), executed as Go code, terminate on every value of the generated type and every buffer, and leave the bytes, return the count or error, or panic, as the field-by-field description of the marshaller says; on well-typed messages MarshalVT returns the encoding of the message.", "quantifier": "all schemas, generator settings (local, well-known and foreign types), messages, buffers", "why_tests_cant": "the printed code is different for each schema", "anchors": ["features/marshal/marshalto.go:field", "features/marshal/marshalto.go:message", "features/marshal/marshalto.go:marshalBackward", "features/marshal/marshalto.go:mapField"]}
{"id": "C84", "title": "The printed UnmarshalVT is the one described", "statement": "The statements that features/unmarshal prints for a message type (UnmarshalVT and UnmarshalVTUnsafe), executed as Go code, terminate without a panic on every input the target can index and every receiver of the generated type without nil oneof wrappers, and leave the receiver and return nil or the error that the field-by-field description of the decoder says; which missing required field an error names is decided by the order of the printed checks, nothing else is.", "quantifier": "all schemas, generator settings (local, well-known and foreign types, pooled types, unique strings, sorted or unsorted fields), targets (32 and 64 bit), inputs, receivers", "why_tests_cant": "the printed code is different for each schema", "anchors": ["features/unmarshal/unmarshal.go:message", "features/unmarshal/unmarshal.go:field", "features/unmarshal/unmarshal.go:fieldItem", "features/unmarshal/unmarshal.go:mapField"]}
{"id": "C85", "title": "Printed code round-trips", "statement": "What the printed MarshalVT (or MarshalVTStrict) returns for a message, the printed UnmarshalVT of the same schema decodes, into a new message, to an equal message with the same unknown fields.", "quantifier": "all schemas, generator settings, messages", "why_tests_cant": "the printed code is different for each schema", "anchors": ["features/marshal/marshalto.go:message", "features/unmarshal/unmarshal.go:message"]}
{"id": "C86", "title": "The printed EqualVT is the one described", "statement": "The statements that features/equal prints for a message type (EqualVT, EqualMessageVT and the EqualVT methods of oneof wrappers), executed as Go code on nil or messages with anything their Go types allow in them, terminate without a panic and return true exactly when the contents are the same (up to NaN behind shared pointers) and false otherwise; EqualMessageVT of a message of another type or the nil interface is false.", "quantifier": "all schemas, generator settings (local, well-known and foreign types), pairs of messages, and ways the two messages share pointers", "why_tests_cant": "the printed code is different for each schema", "anchors": ["features/equal/equal.go:message", "features/equal/equal.go:oneof", "features/equal/equal.go:field", "features/equal/equal.go:compareCall"]}
{"id": "C87", "title": "The printed CloneVT is the one described", "statement": "The statements that features/clone prints for a message type (CloneVT, CloneMessageVT and the CloneVT methods of oneof wrappers), executed as Go code on any memory and any value, allocate, read and write what the field-by-field description of cloning says, in that order, and return or panic alike; CloneMessageVT of nil is a nil pointer of the message type.", "quantifier": "all schemas, generator settings (local, well-known and foreign types, pooled types), memories, values, choices of the pools", "why_tests_cant": "the printed code is different for each schema and its effect on memory depends on all of it", "anchors": ["features/clone/clone.go:message", "features/clone/clone.go:cloneField", "features/clone/clone.go:cloneFieldSingular", "features/clone/clone.go:cloneOneofField"]}
{"id": "C88", "title": "What the printed CloneVT returns is a clone", "statement": "The printed CloneVT of a well-typed message in memory returns; the message returned has the size of the original, is marshalled to the same bytes, compares with every message as the original does, and shares no memory with anything the caller holds: writing through one is not seen through the other.", "quantifier": "all schemas, generator settings, programs that built the memory, messages, contents of pools", "why_tests_cant": "the printed code is different for each schema; sharing depends on the whole memory", "anchors": ["features/clone/clone.go:message", "features/clone/clone.go:cloneField", "features/clone/clone.go:cloneFieldSingular"]}
{"id": "C89", "title": "The printed ResetVT, ReturnToVTPool and FromVTPool are those described", "statement": "The statements that features/pool prints for a message type, executed as Go code on any memory and any value, read, write and put into pools what the field-by-field description says, in that order, and return or panic alike; the order is that of the fields as the features before left it.", "quantifier": "all schemas, generator settings, memories, values, choices of the pools", "why_tests_cant": "the printed code is different for each schema and its effect on memory and pools depends on all of it", "anchors": ["features/pool/pool.go:message"]}
{"id": "C90", "title": "What the printed ResetVT and ReturnToVTPool leave behind", "statement": "The printed ResetVT of a message in memory returns exactly if the message can be reset, and panics with a nil dereference otherwise. If it returns, the message is a new one apart from memory kept for reuse, and so is each message that went into a pool; these share no memory with the message or with each other, and every other message keeps its contents. ReturnToVTPool puts the message itself in last.", "quantifier": "all schemas, generator settings, memories, messages in them", "why_tests_cant": "the printed code is different for each schema; sharing depends on the whole memory", "anchors": ["features/pool/pool.go:message"]}
{"id": "C91", "title": "No data races", "statement": "If goroutines call UnmarshalVT, ResetVT, ReturnToVTPool and CloneVT only on messages that they hold (CloneVT also on messages that nobody changes any more), take messages from the pools, hand messages to each other and do not use a message after returning it, then in every interleaving of the steps of these methods no two goroutines ever access the same object, one of them writing, outside of the pools; a method accesses nothing that belongs to messages of other goroutines or in pools, and writes to nothing that belongs to any message but the receiver.", "quantifier": "all programs with any number of goroutines, schemas, messages, inputs, interleavings of single steps, choices and losses of the pools", "why_tests_cant": "the number of interleavings is unbounded, and what a pool hands out depends on the schedule", "anchors": ["features/pool/pool.go:message", "features/unmarshal/unmarshal.go:message", "features/clone/clone.go:message"]}
{"id": "C92", "title": "Messages stay apart under concurrency", "statement": "In every interleaving of goroutines as in C91, messages that goroutines hold, that are in pools or that are common never share memory; what one goroutine does changes nothing that can be reached from messages of the others, from messages in pools and from common messages, which stay as they are for ever.", "quantifier": "all programs with any number of goroutines, schemas, messages, inputs, interleavings of single steps, choices and losses of the pools", "why_tests_cant": "the number of interleavings is unbounded; aliasing through pools shows only in rare schedules", "anchors": ["features/pool/pool.go:message", "features/unmarshal/unmarshal.go:message", "features/clone/clone.go:message"]}
{"id": "C93", "title": "Methods that only look, on memory", "statement": "SizeVT, MarshalVT, MarshalVTStrict and EqualVT, as code that reads objects of memory one by one, return for a message in memory what the description of these methods on plain values says for the value that the message stands for (for EqualVT of two messages that share no objects, or of a message and itself), and change nothing in memory.", "quantifier": "all schemas, memories, layouts (lent buffers, spare capacity), messages", "why_tests_cant": "what the methods read depends on the whole layout of memory", "anchors": ["features/size/size.go:message", "features/marshal/marshalto.go:message", "features/equal/equal.go:message"]}
{"id": "C94", "title": "Looking at messages concurrently", "statement": "In every interleaving of goroutines as in C91 which also call SizeVT, MarshalVT, MarshalVTStrict and EqualVT on messages that they hold or that nobody changes any more, there are no data races, these calls change nothing, and each returns what it returns for the values that the messages stood for when the call began, whatever other goroutines do in the meantime.", "quantifier": "all programs with any number of goroutines, schemas, messages, interleavings of single steps, choices and losses of the pools", "why_tests_cant": "the number of interleavings is unbounded", "anchors": ["features/size/size.go:message", "features/marshal/marshalto.go:message", "features/equal/equal.go:message", "features/pool/pool.go:message", "features/unmarshal/unmarshal.go:message", "features/clone/clone.go:message"]}
{"id": "C95", "title": "Calls of goroutines do what they do alone", "statement": "In every interleaving of goroutines that take messages from pools, return and reset them, decode into messages that they hold and clone messages, each call returns with the outcome that it has alone on the value its message stood for when it began, without memory, pools and other goroutines, and leaves its caller with messages that stand for what comes out of it there; messages in pools are as new at all times; messages that a call does not work on keep standing for their values; and calls end however steps come, if their goroutine gets to act again and again.", "quantifier": "all programs with any number of goroutines, schemas, messages, inputs, interleavings of single steps, choices and losses of the pools", "why_tests_cant": "the number of interleavings is unbounded", "anchors": ["features/pool/pool.go:message", "features/unmarshal/unmarshal.go:message", "features/clone/clone.go:message"]}
{"id": "C96", "title": "What any accepted input does", "statement": "An input that UnmarshalVT or UnmarshalVTUnsafe accepts, whatever its bytes and even if it is not a valid encoding, is cut without rest into records (a tag and what its wire type calls for, or the elements of a packed list); there is a record for each required field; the unknown fields of the receiver grow by exactly the records whose number is that of no field, in order (by nothing if the option drops them); struct fields which no record is for are unchanged; and each oneof that has records holds the member of the last of them.", "quantifier": "all schemas (types without extension ranges), byte strings, receivers, pools, safe and unsafe decoding", "why_tests_cant": "the space of byte strings that are accepted but are not encodings is unbounded and not covered by round trips", "anchors": ["features/unmarshal/unmarshal.go:message", "features/unmarshal/unmarshal.go:field"]}
{"id": "C97", "title": "Whatever was decoded can be written and read back", "statement": "If UnmarshalVT accepted an input (or several, one after the other) into a new message, whatever the bytes and even if no encoder writes them, then MarshalVT and MarshalVTStrict of the message succeed: no required field is missing at any depth. What they write is accepted by UnmarshalVT and gives a message that is EqualVT (without NaN) with the same unknown fields. Written again it gives the same bytes up to the order of map entries.", "quantifier": "all schemas, sequences of accepted byte strings, field orders", "why_tests_cant": "accepted byte strings that are not encodings are unbounded in number and no round-trip test of messages produces them", "anchors": ["features/unmarshal/unmarshal.go:message", "features/unmarshal/unmarshal.go:fieldItem", "features/unmarshal/unmarshal.go:mapField", "features/marshal/marshalto.go:message"]}
{"id": "C98", "title": "Memory of decoded messages", "statement": "UnmarshalVT of n bytes, whether it succeeds or not, makes the message larger by at most a constant (given by the schema) times n: struct fields, list elements, map entries, pointers and bytes together. An input cannot make a message of more memory than in proportion to its own length.", "quantifier": "all schemas, inputs, receivers, outcomes", "why_tests_cant": "an input that breaks it has to be made for it, and sizes of messages are not asserted by tests", "anchors": ["features/unmarshal/unmarshal.go:message", "features/unmarshal/unmarshal.go:fieldItem", "features/unmarshal/unmarshal.go:mapField"]}
{"id": "C99", "title": "Nesting of calls when decoding", "statement": "UnmarshalVT of n bytes never has more than 1 + n/2 calls of UnmarshalVT open at a time, whatever the bytes, the message it decodes into and the schema. Nothing else limits the nesting: a message within a message within a message, along any fields, takes a call for each, so that a message type that can be within itself has for every n an encoding of at most 20 n bytes which is accepted with more than n calls open at a time. (protobuf-go gives up at 10000.)", "quantifier": "for all schemas, inputs, receivers, targets; second part for all chains of fields in schemas without pools", "why_tests_cant": "Needs every input; tests with deep inputs show some depth at which the stack still suffices.", "anchors": ["features/unmarshal/unmarshal.go:55-81", "features/unmarshal/unmarshal.go:482-575", "features/unmarshal/unmarshal.go:797-892"]}
{"id": "C100", "title": "Depth of decoded messages", "statement": "UnmarshalVT of n bytes leaves a message with at most P + n/2 messages within one another, where P is the most that a message from a pool has (one without pools), also when it ends with an error; only a receiver that had more has more afterwards. SizeVT, MarshalVT and MarshalVTStrict never have more calls open at a time than there are messages within one another, so on a message decoded from n bytes at most 1 + n/2; CloneVT, EqualVT and ResetVT have at most one more.", "quantifier": "for all schemas, inputs, receivers, targets, pools with messages of bounded depth; second part for all values", "why_tests_cant": "Needs every input and every path on which the decoder takes memory; a test sees the depth of its own messages.", "anchors": ["features/unmarshal/unmarshal.go:270-330", "features/unmarshal/unmarshal.go:482-575", "features/size/size.go:40-330", "features/marshal/marshalto.go:120-600"]}
{"id": "C101", "title": "Bytes written for decoded messages", "statement": "MarshalVT and MarshalVTStrict of a message decoded from n bytes write at most a constant (given by the schema) times n bytes, whatever the bytes and the outcome of decoding. A service that reads a message and passes it on writes no more than in proportion to what it read. SizeVT of any message is at most a constant times the memory it takes.", "quantifier": "for all schemas, inputs, receivers, outcomes; last sentence for all messages", "why_tests_cant": "an input that breaks it has to be made for it; tests compare what is written with what is read only for encodings", "anchors": ["features/unmarshal/unmarshal.go:message", "features/unmarshal/unmarshal.go:mapField", "features/marshal/marshalto.go:message", "features/size/size.go:message"]}
{"id": "C102", "title": "Memory of clones and of messages in pools", "statement": "A clone takes at most a constant (given by the schema and the messages in the pools) times the memory of the original. ResetVT takes no new memory: what it keeps in the message and what it puts into pools take together no more than the message did before; the same holds of all that ReturnToVTPool puts into pools. So a message that is taken from a pool, decoded into from n bytes and returned adds at most a constant times n to the memory held by the pools, and one that is used for any sequence of inputs, with ResetVT after each, at most a constant times their total length.", "quantifier": "for all schemas, messages, pools; last sentence for all inputs", "why_tests_cant": "memory is not asserted by tests, and a leak through lists kept for reuse shows only in long runs", "anchors": ["features/clone/clone.go:body", "features/pool/pool.go:message", "features/unmarshal/unmarshal.go:message"]}
