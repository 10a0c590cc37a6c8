# Design

Formal model, in Lean 4, of the code in `/repo` (planetscale/vtprotobuf): the
runtime helpers, the code the generator features emit, the message pool and the
pure parts of the generator. Properties are listed in `properties.jsonl`; the
theorem names per property are in `MANIFEST.json`.

## Approach

The repository is a code generator. What a user runs is the Go code emitted for
*their* schema. The model is therefore an interpreter: a `Schema` value plays
the part of the `.proto` file, and each model function takes the schema and does
what the emitted method would do. The `if packed / repeated / nullable / !oneof`
chains of the generator appear as conditions on the field descriptor, so a
theorem "for all schemas" covers all generated code.

* `Verif/Model/*`: the model. Every definition cites the file and lines it models.
* `Verif/Spec/*`: specifications written from the protobuf encoding document and
  the English properties, not from the code.
* `Verif/Lemmas/*`: helper lemmas.
* `Verif/Props/*`: one file per property group; each theorem is followed by a
  concrete non-trivial instance meeting its hypotheses.

### Layers

1. **Helpers**: varint, zigzag, `Skip`, keys, wire types. Go `int` width is a
   parameter (32 or 64) and int arithmetic which the code guards against overflow
   wraps. Index errors are explicit `panic` outcomes.
2. **Values**: one tree type for Go values of generated types (scalars as 64-bit
   patterns, byte strings, messages with one slot per struct field, lists with
   spare capacity, maps as entry lists, oneof wrappers incl. typed nil), with a
   well-typedness predicate per schema. Map iteration order is the order of the
   entry list; "for any iteration order" is "for any permutation".
3. **Size / marshal**: size in `Nat`; marshal writes backwards into a buffer with
   explicit index, panicking when Go would. Spec: forward encoding function.
   Proof: a `Runs w e n` judgement composed over the emitted statements.
4. **Unmarshal**: index-based decode on the byte slice, result is the updated
   message together with ok / error / panic. Loops take fuel; fuel is proved
   sufficient. Spec: relation `Decodes` (wire format merge semantics).
5. **Equal / clone / reset**: structural functions, with content specs.
6. **Pool**: histories of get / put / decode / mutate over a heap of objects.
7. **Aliasing**: values labelled with memory addresses, for clone, unsafe decode
   and the reuse hazard.
8. **Printed code**: what the generator prints, as syntax trees of a small part of Go with
   their own semantics; shown to do what the interpreters of layer 3 do.
9. **Generator**: pattern matcher vs. declarative glob language, feature
   selection, pool selection, codecs.

### Recursion

Model functions that recurse through messages take the recursive call as a
parameter and are tied with a fuel argument; the top-level function supplies the
depth of the value (or length of the input), and a theorem shows more fuel does
not change the result. Go would overflow its stack on cyclic messages; values
here are trees.

### How the decoder proofs are organised

* `Lemmas/Safe`: one run of the decoder preserves typing, stays in bounds, returns.
* `Lemmas/Sim*`: two runs side by side, related by a value relation; instances give
  concat = merge (C25), unsafe = safe (C47, C48).
* `Spec/Decode`, `Spec/Begins`: the wire format as a relation between byte strings,
  a starting message and a resulting message. `Lemmas/DecodeMsg` computes the
  decoder on such input; `Lemmas/Reject` on input that stops being well-formed.
* `Lemmas/Steps`, `Props/Fields`: consequences per field.
* `Spec/RoundTrip`, `Lemmas/RoundTrip*`: `back v` is what is left of a message once written and
  read. The encoding of `v` decodes to `back v` in the sense of `Decodes` (so the decoder produces
  it), `back v` has the content of `v`, and its encoding is that of a shuffle of `v`.

* `Model/Heap*`: the decoder, ResetVT, ReturnToVTPool and CloneVT once more, on memory with pointers,
  slices sharing arrays, and pools of pointers. `Spec/Heap`: ownership `OwnL` (which objects belong to a
  value of which type; each to one owner). `Lemmas/HeapTri`: triples over ownership with a frame; one lemma
  per function. `Spec/HeapWorld`: what programs may do. This layer is about who can reach and change
  which memory; contents are the subject of the value layer. Records of extensions
  go to the runtime, which empties the message (`hruntimePartial`). Not in the memory layer: memory inside of
  extensions and of foreign messages.
* `Spec/HeapVal`, `Lemmas/HeapSim*`: the two layers agree. `RepL` says which values without addresses the
  items in memory stand for; each function on memory simulates the one on values, with any other items as a frame.

### Assumptions on code outside the repository

`Runtime` stands for protobuf-go on "foreign" message types. Theorems name what
they need: `RuntimeEnc` (size fits the bytes), `RuntimeEqual` (`proto.Equal` is an
equivalence, only nil equals nil), `RuntimeSame` (equal foreign messages marshal
alike up to map order), `RuntimeClone` (`proto.Clone` gives an equal message), `RuntimePerm` / `RuntimeEqualShuffle` (map order only permutes
its output / does not change `proto.Equal`), `Restored` (it reads back one message), `ExtOK` (decoding the record of an extension sets no fields). Pointer identity between two compared messages is an
arbitrary oracle (`CEnv.same`). Map keys of an unsafe decode are modelled with
the content they had at insertion.

## Plan per property

| Id | Modelled | Proof |
|----|----------|-------|
| C01-C05 | EncodeVarint, SizeOfVarint, SizeOfZigzag, decodeVarint loop | induction on the base-128 digits; C05 is violated by a tenth byte above 1: negation with witness and a `_partial` theorem |
| C06-C08 | Skip | loop invariant on index and depth; well-formed records as an inductive relation |
| C09, C65 | encodeKey, KeySize, ProtoWireType | corollary of varint lemmas; finite case split on kinds |
| C10-C18 | size, marshal | `Runs` judgement against the spec encoding; induction on depth; C17 (presence) also through the round trip, C18 (nil receivers) for all methods |
| C20, C21 | unmarshal | invariant index <= length, well-typedness preserved; 32-bit map-bytes violation as witness |
| C22-C35, C37, C38 | unmarshal | `Decodes` relation refined by the loop; violations (packed overrun, group end detection, field number truncation, map wire types) as witnesses next to `_partial` theorems |
| C36 | unmarshal + runtime parameter | violated: witness; partial |
| C40-C42 | equal | content relation `Same` (Spec/Same.lean, a fixed point reached by depth); `dec_equalVT` relates code and relation; NaN, signed zero and nil-element exceptions shown by witness |
| C45 | clone | each field's outcome is like the original's (relation `Alike` of Spec/Alike.lean), the two passes assign every struct field once, induction on depth; pool contents are any `Blank` messages; optional bytes and extensions by witness |
| C46 | CloneVT on memory (Model/HeapClone) | ownership triple `tri_cloneVT`; code without the library as `Mutation`, which stays inside of closed sets of objects; failures by witness |
| C47, C48 | unmarshal, both modes | same function up to provenance labels |
| C50, C51, C53 | ResetVT, ReturnToVTPool, decoding with pools | relation `Reuse` (Spec/Reuse.lean) between a message with memory kept for reuse and one without: reset establishes it, decoding preserves it (an instance of the two-run simulation), it does not show in encoding, size or content; invariant over histories (Spec/PoolHistory.lean); optional bytes, cut lists and panics by witness |
| C52, C54 | pools, ResetVT, decoding, CloneVT on memory (Model/Heap*) | ownership invariant over all histories of a program (Spec/HeapWorld), operations being atomic; hazards by witness |
| C70 | decoder on memory against decoder on values | simulation `SimU`, one lemma per function, induction on the recursion limit; representation `RepL` with a footprint as a multiset of objects |
| C71 | `ResetVT`/`ReturnToVTPool` on memory against the same on values | simulation `PutSim`, which also lists what the pools receive; recursion limits compared with `nestingAt` |
| C72 | `CloneVT` on memory with pools against `CloneVT` on values without | simulation `PoolSim` with `HoldsPool` (pools hold `Blank` messages); contents related by `Reuse`; both recursion limits by depth |
| C73 | decoder on memory with pools against decoder on values without | simulation `HSimP` over `HoldsPool`; leaf operations lifted from `HSim`; contents related by `Reuse` |
| C74 | programs (lists of calls and of pieces of code) run with memory and pools (`MRun`) against the same programs run on values (`vrun`), `Spec/HeapProgram.lean`; decoding with copies, or without from buffers that do not change | induction over runs with C71, C72 and C73 as steps; code of the program is any change of memory with a frame condition that does not look at memory kept for reuse (`Respects`); methods by `Alike` |
| C75 | `Generate`, `generateFile` and the seven features as lists of declared and used methods, pools and types (`Model/Generate`) | `Spec/Generate`: `Links`, conditions `Plain`; case analysis per feature and kind of field; each condition necessary by witness |
| C76 | as C75 | `Promised` and `declsFor` as specification; walk over nested messages = filtered list; permutation, hence no duplicates |
| C77 | as C75 | `Applies` per feature; order by sublist |
| C78 | as C75 | congruence of every generator function in `LocalPackages` restricted to the packages referred to (`RefersTo`) |
| C79 | as C75, with `wrap`; the seven well-known files as data; the tables `wellKnownTypes`, `wellKnownFields` | `Wrapped` conditions as for C75; the API of `types/known` read off its files (`shippedMessage`, `knownMessages`) and compared with the generator's output by evaluation |
| C96 | as C20; pieces of any accepted input in `Spec/Chunks` | each case of the decoder changes only its struct field (`Only`), a oneof case sets its member (`Sets`), and reads bytes of the form its wire type calls for (`Spans`); then induction over the loop with the bit set of required fields (Lemmas/Chunks) |
| C97 | as C20 and C10; what decoding makes in `Spec/Made` | each case of the decoder leaves in its struct field only values made by decoding, set if required (`FP`, `fp_fieldCase`), the loop keeps that with the bit set of required fields, so an accepted message has its required fields at any depth (`unmarshalN_made`); such messages have an encoding (`made_encodes`) and can be restored (`made_restorable`) with unknown fields that are records in the liberal sense of C96 (`LooseUnknown`); the decoder does with their encoding what the liberal specification says (`encode_back_loose`, `unmarshalN_loose`), then as C23 and C24. Pools by `pooled_sim`; the printed methods through C83, C84 and C86 |
| C98 | as C20; sizes of messages in `Spec/Volume` | each piece of the decoder spends from a budget of a fixed price for each byte it has not yet read (`Pays`), whatever its outcome; false for maps with messages and for maps with strings by families of inputs with their decodings computed by induction (`Lemmas/Bomb`, `Lemmas/Ladder`) |
| C99 | as C20 | a sub-message is at least two bytes shorter than the message, so two decoders limited to more than half the length of the input simulate each other (`sim_unmarshalN_half`); conversely the decoding of nested messages is followed by induction on the chain of fields (`Lemmas/Nesting`) |
| C100 | as C02, C20 | every step of the decoder keeps `levels ≤ D` for each `D` that is at least the bound for the bytes it sees, since new objects are made on a path descended within one record (`Lemmas/Levels`); for the other methods, two limits that are both at least the levels agree, by induction on the limit (`Lemmas/LevelsFuel`, `LevelsEqual`, `LevelsClone`) |
| C101 | as C98 and C10 | `SizeVT` is at most sixty times `volume` by induction on the message: each struct field is paid for by its own memory, as only members of a oneof share one (`Lemmas/SizeVolume`); then C98 and C10. The input of `struct_memory` shows that it is false for `Struct`, the one of `strings_memory` that it is quadratic for strings in maps |
| C102 | as C51 and C98, CloneVT | each struct field of the result is paid for by the one of the original, as only members of a oneof share one and only the member set is looked at (`fields_budget`, `memberCost_sum`); a new message takes no more than any other of its type (`zeroMsg_least`); induction on the depth (`Lemmas/CloneVolume`, `ResetVolume`); over any number of inputs by induction, as the message is an empty one again after each (`Recycled`) |
| C17, C27-C30, C32, C35, C64 with pools | as C22 | `pooled_sim` carries the theorems over (`Props/PooledFields`) |
| C80 | as C22 | `Spec/Reorder`: `SameOrder` by the destination of records; steps with different destinations commute; induction over the reordering; pooled schemas through `pooled_sim` in `Props/Pooled` (there also C15, C26 and C85 for pooled schemas) |
| C81 | encoder and decoder, each with two schemas | `Spec/Evolve`: `Older`, and `RuntimeStable`, an assumption on how the runtime passes on messages left to it; induction over depth in `Lemmas/Evolve`: the dropped chunks of the encoding become the unknown bytes of the older message, kept ones are re-encoded up to map order; the newer reader gets a permutation of the chunks, which C23 and C80-style arguments read back; with pools by refinement, `Lemmas/ReuseShuffle` carrying the order of maps through memory kept for reuse; the printed methods through C83, C84 and C86 |
| C82 | what `features/size` prints, as syntax trees (`Model/EmitSize`), and the meaning of the Go statements used (`Model/Go`) | each printed statement adds to `n` what the interpreter model adds (`Adds`); loops by induction over the list, calls by induction over the depth of the message |
| C83 | what `features/marshal` prints, as syntax trees (`Model/EmitMarshal`), for both modes, with the methods of oneof wrappers | each printed statement simulates a writer of `Model/Marshal` (`Sim`: same `i` and buffer, error returned, panic), whatever variables the statements before it left behind; reverse loops, packed loops with their own cursor and calls; induction over the depth of the message |
| C84 | what `features/unmarshal` prints, as syntax trees (`Model/EmitUnmarshal`), for `UnmarshalVT` and `UnmarshalVTUnsafe`, and the meaning of the Go statements used (`Model/GoU`), with `int` of the target's width and scopes | each printed statement does to receiver and index what the function of `Model/Unmarshal` does, leaving variables behind that later statements do not look at (`Ends`); loops by induction over the bytes left, calls by induction over the length of the input; the order of the checks of required fields decides only which missing one is named (`SameBut`) |
| C85 | as C83 and C84 | C83, C84 and the round trip of the interpreters (C23) |
| C86 | what `features/equal` prints, as syntax trees (`Model/EmitEqual`), with the methods of oneof wrappers, and the meaning of the Go statements used (`Model/GoE`); values remember where they were read, so `==` on pointers is that of the two messages | each printed statement returns false or goes on as a comparison of `Model/Equal` says (`Cmp`); induction over the depth of the messages; a new struct compared with an equal one behind a shared pointer is settled by C41 |
| C87 | what `features/clone` prints, as syntax trees (`Model/EmitClone`), with the methods of oneof wrappers, and the meaning of the Go statements on memory (`Model/GoH`); `HKEnv.direct` in the description says which types the printed code calls directly, which decides the order of allocations | printed method = description, as functions from memories to memories; loops by induction, calls by induction on their depth |
| C88 | as C87, with the programs and value semantics of C45, C46, C72 | transported along the equality of C87; well-typed messages are like themselves also with NaN in them (`alike_refl`) |
| C89 | what `features/pool` prints, as syntax trees (`Model/EmitPool`), in the language of `Model/GoH`; `arranged` are the message types with the fields in the order the feature finds | printed method = description, as functions from memories to memories; the variables `f0`, `f1`, ... hold what the description returns as saved; calls by induction on their depth |
| C90 | as C89, with the value semantics of C50, C53, C71 | transported along the equality of C89 |
| C91, C92 | the methods on memory as programs of single steps (Model/Conc: read, write, allocate, Get, Put), goroutines which call them, hand messages on and make them common (Spec/Conc) | separation-logic style triples that tolerate interference at every step (Lemmas/ConcTri ... ConcClone), ownership invariant over all interleavings (Lemmas/ConcMach); run alone the code in steps is the code on memory (Lemmas/ConcRun) |
| C93, C94 | `SizeVT`, `MarshalVT`, `MarshalVTStrict`, `EqualVT` as programs of single reads (Model/ConcRead); machines as for C91 in which goroutines also run these (Spec/ConcRead) | simulation of the methods on values, field by field (Lemmas/ConcRead, ConcReadSize, ConcReadMarshal, ConcReadEqual): the code only reads objects of the message and ends in the result on values; invariant over all interleavings (Lemmas/ConcLook) |
| C95 | machines as for C91 whose goroutines call the library as they should (Spec/ConcVal: `CStep`); what calls do on values (`Op.alone`) | along with the machine runs, for each call under way, an imagined memory in which it is alone (`Virt`, `Going` in Lemmas/ConcVirt): what others have changed is put in its place, messages got from the pool of the machine are given to it by its own pool; there the simulations of C72-C74 apply; invariant over all interleavings with a law for what belongs to whom (Lemmas/ConcLaw, ConcVal); calls end since what is left to do is a well-founded tree |
| C60 | pattern matcher, byte for byte, with the two backtracking points | `Spec/Pattern`: items, runes, language by segments; search invariant (`SearchInv`) over the loop; `Spec/Braces`: the patterns a pattern with groups stands for, by choosing alternatives as text, and when that is what the matcher does (`Separate`); false cases by witness |
| C61 | ValidatePattern | grammar `WellFormed`; exactness both ways; `match_valid_partial`; false in general by witness |
| C62 | ObjectSet (Set, Contains), ShouldPool, ShouldIgnoreUnknownFields | from flag lists to the decision; exact meaning of flags without and with one star via C60 |
| C63 | RegisterFeature, findFeatures, splitting of the flag; map iteration as any permutation | membership, strict order, uniqueness; false case by witness |
| C64 | gRPC and dRPC codecs (not the JSON functions) | equal to the methods; round trip via C23; dRPC panic by witness |

| C66-C69 | `features/grpc`: stubs, handlers, descriptors, as lists of uses of stream and implementation; type and handler names | index as a count over a filtered list; routing via `Spec/Grpc` (lookup of grpc-go); duality of the two ends; names inside of a service by an argument on periods of strings, clashes between services by witness |

Not modelled: text of the generated code other than of size, marshal, unmarshal, equal, clone and pool (what it does is modelled by interpreters, which
methods it declares and uses by `Model/Generate`), import handling, `main`, comments and
interfaces of the gRPC stubs, the protobuf-go runtime (a parameter with stated
assumptions where used), Go memory limits (sizes are unbounded naturals unless the
code itself checks), places of objects being used again in programs with goroutines (`GStep.use` only adds objects; single calls, C72-C74, may put new objects at free places, `HState.free`, and take answers of pools from a list, `HState.gets`), data races of programs which use a message without holding it (C91 covers the others), Go's memory model
(a program without data races behaves as if steps came one after the other; `sync.Pool` and channels order what they hand over).

## Trusted base

* Lean 4.33.0 kernel. Theorems depend on at most `propext`, `Classical.choice`,
  `Quot.sound`. No axioms are added, no `sorry`, no `native_decide`.
* The reading of the Go code and generator templates embodied in `Verif/Model`. For the printed
  code (C82-C90) it was checked outside of Lean: `tools/emitcheck/all.py` reads the Go structs in
  `/repo`, prints the model's syntax trees for them, and compares the text with the generated
  code checked in under `testproto`, `conformance` and `types/known`. All 702 size and marshal
  methods in the files compared agree, up to spaces, parentheses, package names and error texts, and
  with `printu.lean.in UnmarshalVT` as arguments all 132 `UnmarshalVT` and `UnmarshalVTUnsafe` methods,
  with `printe.lean.in Equal` all 177 `EqualVT` and `EqualMessageVT` methods,
  with `printh.lean.in Clone` all 177 `CloneVT` and `CloneMessageVT` methods,
  with `printh.lean.in 'ResetVT|ReturnToVTPool|FromVTPool'` all 42 methods and functions for pools.
