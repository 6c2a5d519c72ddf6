# Formal model of Toyz/concordia – design

Source: `/repo` (read as text, never built or changed). All line numbers refer to that tree.

## 1. Trusted base

* The Lean 4.33 kernel and the three standard axioms `propext`, `Classical.choice`, `Quot.sound`
  (`lean/Verif/Audit.lean` runs `#print axioms` on every theorem named in `MANIFEST.json`).
  No other axioms, no `sorry`, no `native_decide`, no `bv_decide`. No Mathlib module is imported.
* The hand translation from C to Lean. Every Lean definition that models C code cites its file and lines.
* The C semantics conventions listed in section 3.

## 2. What is modelled

| C code | Lean module |
|---|---|
| `vm_internal.h` scalar read/write | `Verif/Bytes.lean` |
| `read_bits` / `write_bits` / sign extension | `Verif/Bits.lean` |
| `vm_exec.c` CRC (`reflect`, table, `calc_crc`) | `Verif/Crc.lean` |
| `vm_exec.c` `cnd_execute`, every opcode; helpers; `cnd_init` | `Verif/VM.lean` |
| `vm_exec.c` `cnd_program_load_il`, `cnd_get_key_name`, `cnd_get_key_id`; `cndc.c` image writer | `Verif/Image.lean` |
| `vm_verify.c` | `Verif/Verify.lean` |
| `cnd_utils.c` string table, number literals, struct inlining (`buf_append_with_prefix`) | `Verif/CompUtil.lean` |
| `cndc.c` `optimize_strings` | `Verif/OptStr.lean` |
| `cnd_lexer.c` | `Verif/Lexer.lean` |
| `cnd_parser.c` expression parser and its code generation | `Verif/ExprParse.lean` |
| `cnd_parser.c` statements: fields with all decorators, `if`, `switch`, blocks, enums, structs, packets, top level; `cndc.c` `cnd_compile_file` | `Verif/Parse.lean` |
| `cnd_parser.c` `resolve_path`, `parse_import`, `parse_top_level` with several files; `cndc.c` `cnd_compile_file` on a path; `cmd_lsp.c` `publish_diagnostics` (whether there are any) | `Verif/Import.lean` (`realpath` and the contents of files are parameters; imports nested so deeply that the C stack is exhausted are not modelled) |
| `cnd_parser.c` `parse_if` back-patching | `ifEmit` in `Verif/Props/Expr.lean` |
| `cnd_parser.c` `parse_switch` jump table | `Verif/SwitchGen.lean` |
| `cnd_parser.c` code emitted for fields, arrays, packets | `Verif/Schema.lean`, `Verif/Code.lean` (code per description) |
| `cnd_fmt.c` | `Verif/Fmt.lean` |
| `cmd_inspect.c` instruction walk | `Verif/Inspect.lean` |
| `main.c`, `cmd_compile.c`, `cmd_fmt.c`, `cmd_inspect.c`, `cmd_encode.c`, `cmd_decode.c`, `cnd_format_file`, the file helpers of `cli_helpers.c`: which files are read and written, and exit codes | `Verif/Cli.lean` |
| `cli_helpers.c` `load_il`; `go/concordia.go` `LoadProgram` | `Verif/CliLoad.lean` |
| `go/concordia.go` `Context`, `Value`, `Execute`, `go_io_callback_gateway`, `parseError` | `Verif/GoBind.lean` (a callback is the tree of what it does with its `Value`; cgo handles, goroutines and failures of malloc are not modelled) |
| `tools/gen_bindings.c` | `Verif/GenBind.lean` (`isspace` and so on as in the C locale) |
| `json_binding.c` `json_io_callback` (`cnd encode`, `cnd decode`); documents are trees | `Verif/Json.lean`, hex mode (`cnd decode --hex`) in `Verif/JsonHex.lean` |
| `cmd_lsp.c` `read_json`, `send_json`, `url_decode`, `file_uri_to_path`, the document store, `handle_formatting`, the URI of definitions, hover buffer | `Verif/Lsp.lean` |
| `cmd_lsp.c` `handle_completion` (context and labels of the items; the registries after parsing are a parameter; positions are counted in bytes, as the code does) | `Verif/LspContext.lean` |
| `cnd_parser.c` `parser_error` (table of messages, line, column), `cmd_lsp.c` `publish_diagnostics` (positions; documents without imports) | `Verif/LspDiag.lean` |
| `cmd_lsp.c` `analyze_source` (token under the cursor), `skip_instruction`, the fields in `handle_completion` | `Verif/LspCursor.lean` |
| `cnd_parser.c` `parse_top_level` with the registries of structs and enums (name, file, line, documentation); `cmd_lsp.c` `handle_document_symbol`, `handle_definition`, `handle_hover`, what `analyze_source` finds | `Verif/LspSymbols.lean` |
| `cmd_lsp.c` `cmd_lsp`, `send_response`, `handle_initialize` and the reading of parameters and building of results in all handlers (JSON values; the items of completions and the list of diagnostics are parameters) | `Verif/LspSession.lean` |
| `demos/demo_c.c`, `demos/demo_cpp.cpp`, `demos/wasm/wasm_bridge.c` `init_vm` | `Verif/Demos.lean` (without messages and failures of `fopen`, `malloc`) |
| `tools/vm_fuzzer.c` (generator, mode "data"), `tools/hexview.c` | `Verif/Fuzz.lean` (without files, arguments, progress lines; mode "il" ignores the loader's answer and is not modelled; `%02X` as two digits) |
| `include/nob_concordia.h` (cnd_compile, cnd_encode, cnd_decode) | `Verif/Nob.lean` (the tool is found and started; the functions that fetch and build it are not modelled) |
| `examples/kitchen_sink/kitchen_sink.c` (sink_cb when decoding) | `Verif/Sink.lean` (counts, indices, `reason`, overruns; not the other contents of the record, encoding, main) |
| `src/compiler/cnd_utils.c` buf_*, strtab_*, sb_* as memory | `Verif/Memory.lean` (elsewhere these are lists; wrapping of `size_t` and failing allocation are not modelled) |
| `src/compiler/cnd_utils.c` struct and enum registries (336-432), and what `cnd_parser.c` does to their records, as memory | `Verif/Registry.lean` (elsewhere these are lists) |

Specifications and proof machinery (no C code behind them): `Source` (the schema language: syntax trees, their tokens, their code), `Spec` (wire values, textbook CRC), `Run` (runs, reachability), `Walk`
(instruction layout read off the VM, proved to be what the VM follows), `Sweep*` (one case analysis over all
opcodes per invariant), `Pair`/`Twin` (two runs side by side), `Sim`/`SimRun`/`SchemaRun` (decoder follows
encoder), `*Lemmas`, `VMEqns`, `Demo` (small concrete runs used in the examples).

For C63: `Mimic` (a host that behaves like another on the calls of a run gives the same run), `JsonTree`/`JsonRun`/`JsonMimic` (paths
in growing documents, the binding against the recording hosts), `JsonDoc` (`DocOf`, the document of a record), `Soft` (IEEE doubles of
integers, for the examples; the theorems use the laws `IntExact` only). cJSON is a dependency outside the repository: its version 1.7
semantics of lookup without case, appending, `valueint` and `true` are assumed (see the head of `Verif/Json.lean`).

Not modelled: JSON text, the rest of the LSP server (JSON, texts of diagnostics), messages
of the CLI, partial reads and writes, memory allocation failure, `math.h` (see below), and of the parser the text of messages,
documentation comments of fields and the C stack (the parser is recursive, so deeply nested sources can exhaust it).

## 3. Conventions (where the model simplifies C)

* Bytes are `BitVec 8`, buffers and programs are `List (BitVec 8)`; the length of the list is the
  length of the C object. Every access of the packet buffer or of the bytecode goes through a
  bounds check in the model; an access outside the object is the distinct outcome `ub`.
* `size_t` positions (`ip`, `cursor`) are `Nat`. C arithmetic on them is modulo 2^64. C objects are
  smaller than 2^63 bytes, and the cursor exceeds `data_len` by at most 33 bytes per instruction
  (theorem C08), so the two agree unless a run executes more than 2^57 instructions. The one
  place where the C code really computes modulo 2^64 on attacker-controlled 64-bit numbers
  (`OP_SWITCH_TABLE`) is modelled with explicit reduction modulo 2^64.
* Shifts by >= the width, signed overflow, `INT64_MIN / -1` and out-of-range float-to-integer
  conversions are the outcome `ub`. `x << 24` on a promoted `uint8_t` and `1 << 31` are taken as
  two's complement (what every supported compiler does). Forming (not dereferencing) a pointer past
  the end of the bytecode, and `memcpy(p, NULL, 0)`, are not counted as `ub`.
* Floating point: `double`/`float` are bit patterns (`BitVec 64`/`BitVec 32`); arithmetic,
  comparison, conversions and `math.h` are an abstract parameter `FloatOps`. All theorems hold for
  every instance, hence for IEEE 754; C63 and C83 assume laws (`IntExact`, `Ieee`, `Near`) that IEEE 754 has, and `Verif/Ieee.lean` gives
  an instance that has them.
* The host callback is an arbitrary function with private state (`Host σ`): for each kind of data pointer
  the VM passes (NULL, pointer to a scalar cell, pointer to a `char*`, pointer into the packet) there
  is one function; it may return an error, and may change the cell (in both modes, like the C
  callback). Assumption: the callback does not write to `cnd_vm_ctx` or to the program, and when
  given a pointer into the packet it does not write outside the packet. The
  function for pointers into the packet is also given the byte order (`be`), since a C callback can read it from the context. `io_callback != NULL`,
  `program`, `data_buffer` non-NULL are preconditions (the code checks the latter two).
* A run is iteration of `step`; `run n` performs at most `n` instructions, so non-termination is
  visible as running out of every fuel.
* Strings are byte lists without NUL; C's `strlen`/`strncmp` comparisons are list equality. Source texts are
  the bytes before the first NUL.

## 4. Per property: what is modelled and how it is proved

See `properties.jsonl` for the statements and `MANIFEST.json` for the exact theorem names. Theorem files are
`Verif/Props/*.lean`; each theorem has examples next to it that meet its hypotheses.

| id | file | how | outcome |
|---|---|---|---|
| C01 | Scalar | read-after-write on byte lists, lifted through `step` | proved |
| C02 | Scalar | digit arithmetic of little/big-endian lists | proved |
| C03 | Safety | frame lemma for every opcode (`SweepFrame`), induction on the run | proved |
| C04 | Safety | same sweep | false for CONST_WRITE; partial |
| C05, C06 | Safety | `SweepUb`: no out-of-bounds outcome | false (witnesses); partial |
| C07, C08 | Safety | inductive invariants (`SweepMono`) | proved |
| C09–C12 | BitFields | the bit loop as reading/writing a stream of bits | proved |
| C13 | BitFields | same | false in both directions; partial |
| C14, C15 | Strings | list lemmas | proved |
| C16 | Arrays | induction on the remaining count | proved |
| C17 | Arrays | loop run compared with the bulk step | false with a pending transform; partial |
| C18 | Arrays | the byte scan on properly nested bodies | false when operand bytes look like array opcodes; partial |
| C19–C22 | Checks | decision lemmas, both directions | proved |
| C23, C24 | Crc | the shift register is injective in state and message byte for odd polynomials | proved |
| C25 | Crc | table = eight bit steps; the initial value is where the paths differ | false; exact condition proved |
| C26, C27 | Trans | integer arithmetic | leak and overflow witnesses; partial |
| C28 | Checks | case analysis | mark leaks (witness); partial |
| C29, C30 | Control | induction over the table; generated tables | proved |
| C31 | Control | `SweepIp` | false for SWITCH_TABLE wrap-around; partial |
| C32 | Term | weight of the loop stack and remaining code decreases | false (count 0xFFFFFFFF); partial |
| C33 | TwoRuns | relation ignoring stale fields (`Pair`) | proved |
| C34 | TwoRuns | relation on written bits (`Twin`) | false for partial bytes; partial |
| C35–C37 | Image | induction over the table | C36 proved; C35 fails for 65536 names, C37 for truncated images |
| C38 | Verify | fuel bound = length | proved (limit shown sharp) |
| C39, C40 | Verify, VerifyPackets | verifier walk against `Walk` | false (witnesses); partial |
| C41 | Expr | structural induction on expression trees | false for shifts and negation (UB); partial |
| C42 | Precedence | induction over trees (operands, function calls, binary operators) against the Pratt parser | false for hex `e`, parentheses and unary operators; partial |
| C43, C44 | Expr | execution lemmas | false (witnesses); partial, C44 exact condition |
| C45 | Names | induction over requests | proved (up to 65536 names; beyond: witness) |
| C46 | Names | induction over digits | false for −2^63; partial |
| C47 | Inline | induction over the walk | length for all bodies; partial for keys |
| C48 | OptStr | induction over instructions; identity when nothing is dead | false (witnesses); partial |
| C49 | Lexer | lexing against an independent token grammar (`Lexes`), which is unambiguous (`LexUnique`) | proved; line numbers are wrong behind strings |
| C50 | Fmt | induction over the character loop | proved; not idempotent, comments confuse it |
| C51 | Expr | back-patching = code shape, composition of runs | proved |
| C52 | Packet | structural induction over descriptions: encoder run, then decoder in lock step | proved |
| C53 | Safety | `SweepErr` | proved |
| C54 | Inspect | walk against `Walk` | false for two opcodes and at the end; partial |
| C55, C56 | Crc | injectivity over a window; polynomial division | proved; C56 for all parameters if the initial value is the one the code starts from (`C56_textbook`), partial for the declared one because of C25 |
| C57 | Keep | `SweepKeep` | false for EMIT inside a byte; partial |
| C58 | ParseTerm | measure: two per token to come plus one for the current one; every loop reads a token or gives a message; linear fuel bound and independence of the fuel | proved |
| C59 | Source*, spec in `Verif/Source.lean` | a compositional definition of the language (code of a tree put together bottom-up, jump distances computed, no patching) against the parser; mutual structural induction over statements, else-chains, cases | proved |
| C60 | SourceFindings | bounds of ranges followed into the VM's check | false (witnesses); partial |
| C61 | Sch, descriptions in `Verif/Sch.lean` | C52 extended by if/else, switch (both tables), integer transforms, scalings (of integer and float fields), polynomials, splines, `@optional`, computed fields: mutual structural induction over descriptions and cases; what the VM does for scalings, polynomials and splines is in `Verif/CurveStep.lean` | proved |
| C62 | SrcSch, OptSch, SrcKeys, EndToEnd | `progSch` gives the packet (C61 description) a source program means; its code is what C59 yields; the optimiser's walk over the code of a description renumbers exactly its keys (`optSch_code`, `optSch_names`), by mutual structural induction; then C59, C35, C61 | false (witness `C62_false_constant`: `@expr(69632) u32 x` after an inlined struct is compiled as 4096; `C62_false_key`, Props/EmitKey: `@expr(p.y) u8 b` after another computed field is compiled to read that field; `C62_false_example`, Props/SinkSchema: the repository's own `kitchen_sink.cnd`); partial: programs on which the walk stays in step, or on which nothing is eliminated (every name is in use, whatever constants and computed fields there are) |
| C63 | Json, JsonExist, JsonFind; spec `DocOf` in `Verif/JsonDoc.lean` | the binding follows the supplying and the recording host of C61 call by call (`exec_mimics`), the tree being built is that of the record (induction over `DocOf`); then C61; numbers by `IntExact`; that the document exists, for descriptions checked by `Sch.docOk`, by induction over the description | false (witnesses, findings 30–37); partial: records whose document has distinct names, nonempty arrays, no arrays of single bytes, numbers that fit `JsonFits` |
| C64 | Tools | induction over the string table | false for files that are cut (witness `C64_false`, exactly when: `C64_defined_partial`); proved for written images, agreement proved wherever both accept |
| C65 | Tools | C62's compilation, C64, C63 | partial as C62 and C63 |
| C66 | Tame, SafeRun, TameRun, TameRuns, Total | descriptions (`Sch`, as in C61) are checked by `Sch.tame` (Tame.lean), which keeps track of three facts: an `@optional` may be waiting, the position may be behind the packet, the position may be inside a byte. `sch_seg`, by mutual induction on the description, shows for every passing description, host and state that the run over its code ends with a result or comes to the end of the code, agreeing with what the check says; arrays by induction on the count, or on the bytes left when the count is 0xFFFFFFFF | partial: descriptions that fail the check are excluded, and `C66_false_*` are compiled programs among them that loop for ever, read outside the packet, overflow or shift too far. The check is not complete: it refuses some harmless programs, e.g. `@scale`, `@poly` and `@spline` on integer fields when encoding (the range of the host's double is not known) and `@offset`/`@sub` when encoding |
| C67 | Prefix | from C61 (every packet, whatever follows, decodes to its record and ends where the record says) and the determinism of runs; streams by induction | proved for the descriptions of C61 |
| C68 | SweepHost, Strict, StrictRun, StrictRuns, Accept | descriptions are checked by `Sch.exact` (Strict.lean), which keeps track of the position within the byte, the byte order, and a waiting `@optional`. `sch_snd`, by mutual induction on the description: a successful run that starts at the code of a description passes its end, and what it reported there is a record (`SRec`, Sch.lean; the specification of C61). Since the host only grows (`SweepHost`), conditions on the events at the end hold at every point of the run. Resending follows with C61 | partial: the check refuses descriptions, and three kinds of events are excluded (counts of 0xFFFFFFFF, NUL in prefixed strings, NUL-terminated strings longer than their limit). `C68_false_*` show a program for each of string limits, counts and optional ranges where bytes are accepted that are no record |
| C69 | Lsp | framing specified by the protocol's grammar (`Framed`, any other headers); `fgets` line by line, `atoi` against decimal numerals (`decText`); streams by induction | reading and sending proved; safety false for `Content-Length: -1` (`C69_false_length`), proved for all other inputs with numbers in the range of int (`C69_safe_partial`) |
| C70 | Lsp | encodings specified by an inductive relation (each byte plain or as % and two hex digits in either case), decoding by induction on it | decoding and bounds proved (for paths for which `isalpha` is defined); the answer's URI only for paths without percent signs and backslashes (`C70_definition_partial`, false otherwise: `C70_false_percent`) |
| C71 | Lsp | store against the last text of each document, by induction over the notifications; edits applied by an independent editor (`applyEdit`) | partial: until the document is closed; if the document is saved and has fewer than 999999 line ends. False otherwise (`C71_false_close`, `C71_false_unsaved`, `C71_false_long`) |
| C72 | Lsp | exact condition (`C72_hover`) | false (`C72_false_long`); the theorem says for which texts it holds |
| C73 | LspCursor | tokens before the cursor by the grammar of C49 (`Behind`); `tokStart_spec`, by induction on white space and comments; columns by induction over the tokens, with the uniqueness of C49 | partial: no string with a newline before it (`C73_false_string`), and not the beginning of an identifier that directly follows a token (`C73_false_start`) |
| C74 | LspCursor | `skip_len`: the server's instruction lengths against the VM's (`vmLen`, Walk.lean) for all opcodes; induction over the program | partial: without ARR_EOF, ARR_DYNAMIC, SWITCH_TABLE, EMIT, RAW_BYTES, CONST_CHECK; false with them (`C74_false_eof`, `C74_false_kinds`) |
| C75 | ExprExact | exact language (`C75_language`, an equivalence): completeness from C42's induction, extended to what the compiler takes for parentheses and unary operators (`Acc`: one token is skipped); soundness by induction on the recursion bound of the three mutual functions, with errors never taken back (`errsLe`) | partial: equivalence with the documented grammar where the tokens have no unary operators and no parentheses but those of calls (`C75_accepts_partial`); false otherwise (`C75_false_paren`, `C75_false_open`) |
| C76 | Import, ImportTerm | imports as inclusion (`Expand`: each file once, where first imported), on the syntax of C59; induction over the expansion, in front of declarations and behind decorators; ending: the cost of the files not yet begun is part of the measure (`budget`); `C76_editor_ends`, `C76_editor_one` (Props/NoUbFiles): the parser of the language server ends as well, with one outcome | proved for documentation comments that do not follow a decorator or an import (`DocsFirst`); false otherwise (`C76_false_doc`), and for the language server with cyclic imports (`C76_false_editor`) |
| C77 | GoBind, Props/GoBind, SweepCall | records: the Go host behaves like the recording hosts of C61 on the calls of a run (`Mimic`), from the zeroed context Execute makes (`packet_from`); C strings: invariant `Tidy` (allocated = pending) over all runs; memory: every call of a run has the pointer of its opcode (`HostKeep`), induction over the callback's tree; errors: C81 for the Go host (`C77_refusal`) | proved for slices and strings shorter than 2^31 bytes, strings without NUL bytes (the records of C61 have none in NUL-terminated and prefixed strings); false otherwise (`C77_false_nul`, `C77_false_terminated`, `C77_false_wide`, `C77_false_long`) |
| C78 | SweepCall, Props/Calls | calls logged by a wrapper around an arbitrary host; one case analysis over all opcodes with the promises as an invariant (`exec_keep`) | proved; that a NUL-terminated string ends in the packet is false (`C78_terminated_false`) |
| C79 | Wire, SchWire (specification), WireRun, Packet, Sch, Props/WireFormat | `SWire` says which bytes hold which part of a record, naming no function of the model. The induction of C61 carries two facts along (`Wrote`): what has been written is in the format, whatever agrees with it on the bits so far; and if the buffer already held the record in the format, nothing was changed. The first gives encoding; the second gives decoding: encoding the record over the packet leaves it as it is, and the decoder follows that run | proved for all descriptions of C61, for source text as C62. The converse, that what is accepted is in the format, is false: padding and filling are not looked at (`C79_converse_false`); C68 says what holds of accepted bytes |
| C80 | CodeShape (specification), Props/CodeShape, CodeStmt, CodeSwitch, CodeTop | `Blk` is an inductive definition of structured code on bytes. One relation per parser function (`R`: tokens taken, messages kept, code appended that is `Blk` if no message was given), for all token lists, by induction on the parser's fuel; the switch keeps where its jumps and cases are (`SwInv`) until they are patched; structs are registered as `Blk` and stay so through the inliner (`inline_blk`); the loop over declarations keeps `TInv` | proved for all accepted texts with the three deviations as constructors of `Blk` (`C80_shape`), without them for texts that pass the token check `Nice` (`C80_strict`) |
| C81 | SweepCbErr, Props/CallErr | answers logged by a wrapper around an arbitrary host; one case analysis over all opcodes (`exec_cberr`) | proved. Two kinds of refusals do not count and are stated as such: a string asked for when encoding, which is skipped if marked optional (`C81_optional_passed`), and the offer of a byte array as a whole, which is then offered byte by byte (`C81_bulk_passed`) |
| C82 | CodeFlow (specification), Props/CodeFlow | `Flow`: the places control can come to, read off the program. Induction over `Blk` (C80): the instructions of each piece of code, their successors among them, the bytes of each its own (`Part`, `CSeg`); then runs by `step_next` (Walk), termination by C32 | places, jumps and bytes proved for all code of the shape of C80 (`C82_static`, `C82_apart`); runs and termination partial: empty arrays must be skipped properly (finding 6; `C82_skips`: no operand byte is 0x38), counts as in C32; images partial: if the string optimiser has nothing to do. False without the token check (`C82_false_width`) |
| C83 | Ieee (rational value of a double, laws of exact arithmetic), IeeeNear (law of rounding), Props/Curves, Props/CurveNear, Props/CurveFind | specification over the rationals: `r * factor + offset`, `powerSum` (c0 + c1 r + ...), `chord` (the straight line between two points). The laws `Ieee` say what IEEE 754 says of operations whose result needs no rounding; `Soft.ieee`, doubles with rounding in Lean, is proved to satisfy them (`Soft.ieee_law`). Scalings directly; polynomials by induction over the coefficients; polynomials of first degree through one step of Newton's method; splines by induction over the points. With rounding (`Near`: every operation is exact up to a factor of 1 ± 2^-53, also proved of `Soft.ieee`) a number scaled by any factor comes back as itself or its neighbour towards 0 (`C83_scale_near_partial`): the errors of the four operations are added up. Statements are about the VM: the two instructions, any host, both modes | false when values are rounded and outside the points (witnesses `C83_false_*`, compiled from source, run with `Soft.ieee`); partial: no rounding; encoding of polynomials of first degree only |
| C84 | Props/ReadToEnd | `EndSch` puts a read-to-end array behind, in front of or inside other descriptions (what is behind it may take no room); `ERec` says what fits and where it lies, without reference to the VM: rounds that each begin at a byte and take at least one, then one closing call. `encodes_end` by induction on the description, `eof_rounds` by induction on the number of elements; `Follow` carries along that the decoder goes the same way on every packet of the same length that agrees with what was written (C61's simulation needs no length, here it does). `progEnd` gives the description of a source text whose last declaration is a packet with such an array; `progEnd_code` and C59 connect it with the compiler | false for buffers longer than the record, for JSON, inside other arrays and for elements without bytes (`C84_false_*`); partial: the array is a field of the packet itself when starting from source text, not of a struct |
| C85 | Props/JsonHex | The host depends on the instruction that calls it (`peekAt`: the byte the callback takes for the opcode of the elements); `hexExec` gives it to the VM instruction by instruction. `taker_hex` shows, as C63's `taker_json` does without `--hex`, that the binding follows the recording host as long as no array is taken for one of bytes; `hex_mimics` by induction on the number of instructions. `unhex` reads digits without knowing how they are written (`C85_digits`) | false for every array of bytes, for some arrays of structs and depending on limits (`C85_false_*`); partial: programs without arrays of single bytes in which no array is mistaken for one (`NoBulk`, `NoPeek`, both decidable) |
| C86 | Props/Bindings, Props/BindText, Props/BindNames | `Header` says which texts are headers of the usual form (comments, any blanks), `cMeaning` which constants C sees in them: an enumerator without a value follows the one before it, the first of an enumeration is 0. `process_header` by induction on the lines with the invariant that `last_val` is one less than the next value; `strtol0_eq` and `numLit_fmt` connect the numbers of the C library with `numLit`, a reader of literals. `readText` reads the generated files line by line, whatever the language, and `C86_files_partial` compares what it finds with `cMeaning`. `flat_inj`: from the printed name the words can be told by capital letters | false for enumerations that leave the first value to C, for several enumerators on a line, `/* */`, sums, names that differ only in underscores before digits, and more than 256 constants (`C86_false_*`); the Python and TypeScript files lack the byte orders (part of the statement) |
| C87 | Props/LspContext, Props/LspPrograms | `TokensBefore` says which tokens of a text begin before the cursor (every text has some, `C87_tokens`), `InGroup` which named group of brackets one is in behind tokens. `grp_inv`: the trackers with their depth counters agree with it as long as named groups do not begin in named groups, also when closing brackets are missing or in excess. `prog_level`, by induction over the grammar: programs are such token sequences, so it holds for every beginning of a program with anything behind the cursor (`C87_context_program`, `C87_inside`, `C87_outside`, `C87_decorator`); then what is offered (`C87_members`, `C87_fields_partial`, `C87_others`). Partial: false within packets and nested decorators. |
| C88 | Props/LspDiag | The parser's state has the list of its messages, each with the number of tokens behind the current one (`PSt.log`); `Later`, proved of every function of the parser for C58, says that messages only are added, at tokens read in between and in order. `publish_spec`: whatever the number of messages, the table grows such that the first 1024 are kept, and no entry is read that was not written. `StartAt` says, from the grammar of tokens alone, behind which text a token begins; `places_spec` and `columnIn_spec` that line and column are those of that text. `C88_agrees`: nothing is reported exactly if the compiler accepts. Partial: positions are wrong behind strings with newlines and lone carriage returns (`C88_false_lines`). |
| C89 | Props/FmtTokens | `PlainText` says, from the grammar of tokens of C49, which texts are meant and what their tokens are. `Spaced` relates two texts that differ in the white space between characters, strings and comments only, and white space appears or disappears only next to `{ } ; ,`, behind a line comment and at the start. `fmtLoop_spaced`: the formatter's loop, from every state that fits what was written, gives such a text. `spaced_lexes`: such a text has the same tokens, by induction over `PlainText`; the conditions on the character behind a token carry over since that is the same or white space. `C89_compile` and `C89_files` follow, since the compiler depends on the tokens only. `C89_plain`: texts without `/*` and with carriage returns only in front of line feeds are plain, unless they end inside a string. Open strings and quotation marks in block comments do change tokens (`C89_open_false`, `C89_blocks_false`); the conditions on double slashes in block comments and lone carriage returns are those of the proof. |
| C90 | Props/FmtSettle | `StrClosed` says which texts are meant (`plain_closed`: among them all of C89). `cut_total` cuts every such text into gaps of white space and tokens; `fmtTo_layout` (induction over the cut) says the output is the tokens with new gaps, each a function `gapOf` of the two neighbours, the open braces and two facts about the old gap (line ends, whether it has a space); `cut_layout`: the output has the same cut with the new gaps; `gap_settles`: taking new gaps three times is taking them twice. `C90_layout` reads the line ends and the indentation off the new gaps; `braceDepth` is its own count of braces | proved; `C90_twice`: twice is needed; `C90_open_false`: a text that ends inside a string grows for ever |
| C91 | FixedRun, Props/Corrupt | `Sch.extent` computes where a description ends (bits, byte order), none if that depends on the packet. `sch_leads`, by mutual induction on the description: every accepting run that starts at its code at one place passes its end at the other (`Leads`), whatever the packet holds, with a case for runs that stand behind the end of the packet (padding moves there unchecked). `crc_leads`: what an accepting run has found at the checksum. Then C55. Hosts are arbitrary but `Steady`; the two packets may be decoded by different ones | proved; windows that straddle the data and the checksum are not claimed. `C91_variable_false`: with an array that carries its length, one wrong byte can move the place where the checksum is looked for, and the damaged packet is accepted |
| C92 | Pace, SweepOpt, PaceRun, PaceRuns, Props/Linear | `Sch.swift` checks that every array element takes a byte for certain (following the `@optional` flag). Account method: each instruction costs one, each byte of the packet that is passed pays in `d * L` (`Paid`); a round of an array is paid for by the byte it takes (`rounds_paid`); induction on the description (`sch_lap`). One case analysis over all opcodes (`execOp_pace`) says which of them must move on inside the packet | partial: instructions are counted, not the work inside one (a string or a checksum is one instruction); false without the check (`C92_false_bits`: a packet of four bytes takes any number of instructions up to 2^34) |
| C93 | Grow, SweepByted, Props/Fits | `CutShort` says which instructions take the end of the buffer for an answer. `step_wid` compares a step on a buffer with the step on a longer one, handler by handler; `C93_longer` follows for runs. Together with C61 (the run on a long buffer ends at the record's length) and `exec_fit` (a run that is not cut short stays inside) a short buffer cannot succeed: `C93_encode_partial`, `C93_decode_partial`. `firm_calm` (with C82's `Flow`) gives a condition on the code only, for hosts that never answer the count 0xFFFFFFFF; along a record the record hosts are in step with such hosts (`capped`, C63's `Mimics`), and a run on a short buffer is in step with the one on a long buffer as long as that is calm (`calm_cut`): `C93_fits_partial`, `C93_whole_partial`; with C66: `C93_errors_partial`; for `cnd encode` and `cnd decode`: `C93_json_partial`, `C93_json_decode_partial`. Partial: false with bit fields and optional fields (`C93_false_bits`, `C93_false_optional`). | partial |
| C94 | Cli, Props/Cli | The commands are functions from a disk (paths may share a file, files may be locked) and a command line to an exit code and a disk; the parsing and printing of JSON text are parameters. `C94_frame` and `C94_failure` by cases over the commands; `C94_compile` and `C94_fmt` say exactly when exit code 0 comes and what is then in the file; `C94_pipeline_partial` composes C65, C64 and C76, `C94_fmt_compile` uses C89, `C94_too_long_partial` and `C94_cut_partial` use C93. `_partial`: success without output is possible (`C94_false_encode`, `C94_false_decode`, finding 76), and the sequences have the premises of C65 and C93. | partial |
| C95 | LspSymbols, Props/LspSymbols, Props/LspKnown, Props/Outline | The specification `declared95` reads the tokens of a file from left to right with a depth of braces and parentheses only (`Reader`): a `struct` or `enum` outside of all braces declares the next word, with the documentation comments since the last declaration. `Rel`, proved of every function of the parser, says that a parse without errors leaves that reader at the same place; `Reached` says which files are imported, `Refers` (C67) what a path refers to. `erased`: the parser with registries is the parser of C67. `C95_known_partial`: the registries have all declarations of the document in order, all of each imported file of which they have any, nothing else, and no name twice. `C95_symbols`: the outline of a document without imports, exactly. `C95_definition_partial`, `C95_hover_partial`, `C95_hover_enum_partial`, `C95_about`, `C95_details`: definition and text. Partial: packets have no entries (`C95_false_packet`), imported declarations are listed under the importing document (`C95_false_imported`), the outline is of the saved file (`C95_false_saved`), a field with the name of a struct counts as the struct (`C95_false_field`), decorators are defined in a file that does not exist (`C95_false_builtin`), and behind an error nothing is known (`C95_false_error`). | partial |
| C96 | LspSession, Props/LspSession | JSON values are trees, their text is cJSON's (parameters `parse`, `print`). `Says` specifies the messages of the protocol by what members objects have, with any others around them; `Due` what is to be sent for each. `C96_dues` by induction over the session, `C96_safe_partial`: no undefined behaviour besides that of the analyses; `C96_definition_partial` and `C96_hover_partial` compose C71 and C95 for the request behind any session; `C96_bytes` and `C96_received` compose C69. Partial: requests of other methods are not answered (`C96_false_unknown`), messages without the expected members use null pointers (`C96_false_params`, `C96_false_uri`), a text that is not JSON ends the session (`C96_false_garbage`), see findings 81 to 83. | partial |
| C97 | Demos, Props/Demos | The callbacks are hosts of the VM with a flag for touching memory that is not theirs; a program is loader, encoder and decoder one after the other, starting from any contents of the context. `Telemetry.In` says where a record's bytes are. `tel_compile`: the compiler's image of the schema text (by C59). `C97_encode`, `C97_decode`, `C97_short` for all buffers and bytes, `C97_round` for whole programs, `C97_load`, `C97_compiled` for the loaders. Where the short loaders are wrong: `C97_false_short`, `C97_false_offset`, `C97_false_magic`; `C97_false_schema`: the callbacks with another schema. | proved |
| C98 | Memory, Props/Memory | Memory is a set of blocks of cells (never written, byte, pointer); `malloc`, `realloc` (which always moves), `free`, reads and writes outside or after `free` are `none`. The calls are modelled line by line; `AStep`/`ARun` is the specification on lists. `Rep` (object, contents, blocks owned), `Inv` (owned blocks distinct, apart, and all there are), one lemma per call, induction over the sequence: `C98_run`, `C98_leak`, `C98_cap`; `C98_table`: the table is `strtabAdd` of the compiler's model. `C98_false_alias`: appending a buffer to itself reads freed memory when it grows | proved (sizes are natural numbers, allocation does not fail) |
| C99 | Registry, Props/Registry | On the memory of C98: records of cells in a growing array, each owning blocks (name, file, comment, code; values and their names and comments). `DStep`/`DRun` is the specification on lists. `Own` gives every block one role (`Role`), `RInv` says which roles exist and what their blocks hold; one lemma per call, induction: `C99_run` (what is read back is the lists), `C99_leak` (freeing leaves no block). `C99_total`: the specification refuses nothing but what is stated. `C99_false_stale`: adding to a full registry frees the array, so a kept pointer is not good; `C99_parser`: the parsing of a body, for which the pointer is kept, adds nothing | proved (sizes are natural numbers, allocation does not fail) |
| C100 | Props/NoUb, NoUbShort, NoUbFiles | `tidy` is a computable check on the tokens of a text: every token read as a number is between -2^62 and 2^62, `(L + 1) * structs + max(L, A)` is below 512 (L the longest token, A = 255 if there are dotted names), no documentation comment between `if` or `expr` and the next `{` or `;` (and, where there are such comments at all, no such end where an operand is due and no `pow`), no `switch` between `struct` and the next `packet`, no `bool` with a bit width above 1. `C100_no_ub_partial`: a text that passes is compiled without undefined behaviour. The proof follows every function of the parser with one invariant: the tokens to come pass the check, the names in the table are short, and the code of every struct, walked as `buf_append_with_prefix` walks it, meets only keys of short names (`W`, `inline_ok`). `C100_short`, `C100_digits`: every token of up to 17 bytes, and every one with up to 18 digits that is not hexadecimal, is such a number. `C100_simple_partial` (Props/NoUbShort): the same conclusion for a smaller class of texts described by the token grammar of C49 alone. `C100_files_partial`, `C100_editor_partial` (Props/NoUbFiles): programs of several files, however they import each other, and the diagnostics of the language server; the structs of all files count, as no file is read twice. `C100_false`: four texts that do not pass and have undefined behaviour. 25 of the 26 .cnd files of the repository pass (by evaluation; the other has a `switch` in a struct, whose table of jumps is walked as instructions when the struct is copied) | partial: false in general; the check is sufficient, not necessary |
| C101 | Props/Fuzz, FuzzSource | packets read off the sequence of random numbers (`rndPacket`), not off the loop; counters compared with runs from a fresh context (`C101_counters`, using C33 for the reuse of the context), bounds and seed 0 (`C101_packets`), generator linear over GF(2) and injective (`C101_generator`), no hanging for programs without backward jumps (`C101_ends_partial`), neither hanging nor undefined behaviour for source programs that pass the check of C66 (`C101_source_partial`) | false of the report (`C101_false_report`; `C101_report_partial` says what it leaves out); false for looping programs (`C101_false_hang`) |
| C102 | Props/Fuzz | text equal to the lines of the file (`C102_dump_partial`, `C102_lines`), read back by `unDump` | false of files of 2^31 bytes and more (`C102_false_long`) |
| C103 | Props/Nob | each helper as a run of `cndMain` on the words it passes, over C94: exactly when `cnd_compile` answers yes and where the image is (`C103_compile_partial`), the same for `cnd_encode` (`C103_encode_partial`) | false: the file named as output is untouched whatever the answer (`C103_false_untouched`), with runs that answer yes and leave no such file (`C103_false_compile`, `C103_false_encode`); `cnd_decode` always fails (`C103_false_decode`) |
| C104 | Props/Sink | every call of the callback keeps an invariant on counts and stores (`Sink.Kept`), hence every run does (`host_keeps`, over the sweep of Mimic): only `dynamic_bytes` and `dynamic_strings` are overrun, below index 65535 and 255 (`C104_arrays_partial`), and none by a schema without these fields (`C104_safe`) | false of these two (`C104_false_bytes`, `C104_false_strings`) and of `reason` (`C104_false_reason`), each for a compiled schema with fields of the example's schema; a run that ends in an error is covered up to its last step |

What the specification of C59 leaves out (its meaning is `none`): parentheses and unary operators in expressions,
`@import` (see C76), `@depends_on`, string arguments, the literal −2^63, enum values of 2^63−1, CRC widths other than 16 and 32, CRCs on
fields of another size, prefixes and limits in places where the compiler drops them, arrays without a length, transforms of strings,
structs and enums, bit fields with ranges, CRCs or expressions, widths 0 and from 256, field names repeated within a struct.
Most of these are refused by the compiler; the others are findings (C60, C42).

## 5. Disagreements between the code and what it should do

Everything marked with a theorem name is proved of the model; the rest was noticed while translating and is built into the model
or its conventions.

### VM (`vm_exec.c`)
1. OP_SWAP is in the opcode list and emitted for `int op float`, but the VM has no handler and ignores it: the wrong operand is
   converted, `1 == 1.0` is 0 (`C43_false`).
2. OP_IO_BIT_BOOL: the VM reads a key only; the compiler emits a width byte as well, which is then executed as an opcode
   (`C82_false_width`). The width 1 selects little endian: in a big-endian file a one-bit flag reverses what follows (`C82_flag_order`).
3. OP_ENUM_CHECK lacks the `cursor >= size` guard the range check has: it reads before the buffer (`C05_false_enum`,
   `C06_false_optional_enum`).
4. OP_ALIGN_PAD moves the cursor past the end when decoding; later checks and CRCs read out of bounds (`C06_false_pad_crc`,
   `C06_false_pad_str`).
5. OP_SWITCH_TABLE computes the slot modulo 2^64 and may read far outside the program (`C31_false_switch_table`).
6. Skipping an empty array scans bytes, not instructions: a key such as 0x0238 makes a good packet invalid, a key 0x35 loses the next
   field silently (`C18_false_key`). For empty arrays the host gets a start but no end notification.
7. A count of 0xFFFFFFFF is taken for a read-to-end array: a five-byte packet keeps the decoder busy for ever (`C32_false`).
   ARR_EOF at the end of the packet leaves its loop frame on the stack and makes no start call.
8. Transforms: reset after each field, so only the first element of an array is transformed; not reset by a missing optional
   field or a bool (`C26_false_leak`); ignored by the bulk byte-array path (`C17_false_transform`); signed overflow
   (`C27_false`).
9. The optional mark is not cleared by instructions that ignore it (`C28_false_mark_leaks`); strings do not honour it.
10. Bit fields stop silently at the end of the buffer and report success (`C13_false_encode`, `C13_false_decode`). The unused bits of
    the last byte keep what the buffer held (`C34_false`).
11. OP_EMIT compares the full 64-bit value with the truncated wire value: 256 as `u8` and every negative value is written
    but refused when read back (`C44_false`). It does not align, so in the middle of a byte it overwrites bits
    (`C57_false`), and can lead to an out-of-bounds CRC (`C05_false_emit`).
12. CRC-32 table path: the initial value is used unreflected, the general path reflects it, so they differ unless the initial value
    reads the same in both directions (`C25_false`).
13. OP_CONST_WRITE writes in decode mode (`C04_false`).
14. Changing the byte order in the middle of a byte makes the next bit field overwrite bits already written (example in `Props/Keep`).
15. Expressions: shifts by 64 or more and the negation of −2^63 are undefined (`C41_false_shift`, `C41_false_neg`); `if` on a
    float tests the bit pattern, so −0.0 is true.

### Images and verifier
16. `cnd_program_load_il` does not check that the strings are present; lookups run past the image (`C37_false`). 65536 names are
    stored as 0 (`C35_false`).
17. The verifier does not check that jump targets are instruction boundaries (`C39_false`), has wrong lengths for 15 opcodes
    (`C39_false_length`), accepts missing operands (`C39_false_operands`) and jump tables whose count wraps to 0
    (`C39_false_table`). It rejects every packet with eight names (`C40_false`), every enumeration (`C40_false_enum`), all
    transforms, and a jump to the end of the program. Its 32-bit pointer wraps for programs near 4 GiB (`C38_limit`).

### Compiler
18. `rules[]` is indexed out of bounds for documentation comments in an expression (`C42_doc_false`).
19. Parentheses and unary operators consume a token too many: `(a)` is refused, `!!a` means `!a` (`C42_paren_false`,
    `C42_unary_false`). Worse, `(a - -b)` is accepted and means `-b`, and `((a)` is accepted (`C75_false_paren`, `C75_false_open`); `C75_language`
    says exactly what is accepted and what it means. The repository's own `examples/features/conditionals/if_else.cnd` is refused for
    this reason (`C42_false_example`). `examples/features/arrays/array_pre.cnd` is refused as well, since it writes `uint8[] data` where
    the parser wants `uint8 data[]` (`arrayExample_refused`).
20. A hexadecimal literal with a digit `e` is parsed as a float (`C42_hex_false`); `a -1` is `a` followed by a stray literal
    (`C42_minus_false`).
21. The literal −2^63 overflows (`C46_false`); `parse_number_u32` ignores a minus sign and a decimal point (`C46_false_u32`).
22. String ids are cut to 16 bits (`C45_false`).
23. Struct inlining: walks jump tables as code and corrupts them (`C47_false_table`); misses names behind marks, checks and
    transforms (`C47_false_names`); leaves the count reference of dynamic arrays unprefixed (`C47_false_ref`); mis-sizes
    META_VERSION (`C47_false_version`). Long names overflow a 512-byte stack array (outside the model).
24. Dead-string elimination: takes the first byte of a PUSH_IMM constant for a type, so constants are changed (`C48_false_constant`)
    and names lost (`C48_false_name`); renumbers bytes inside jump tables (`C48_false_table`) and inside polynomial
    coefficients (`C48_false_poly`). None of this happens when every name is in use (`C48_all_used`).
    From source text to wire: `struct S { u8 a; } packet P { S s; @expr(69632) u32 x; }` writes 4096 for `x` (`C62_false_constant`).
25. Information is cut or dropped without a message (C60): bounds of `@range` and enum values that do not fit the type, bit widths
    from 256, `max` from 65536, the terminator of `until`, ranges, CRCs and expressions of bit fields, a field with an unknown CRC
    width, `@be` and unknown decorators in front of declarations, `@le` in a big-endian file. `u8 x[];` and a range of
    a bool give broken code. A field with `@be` makes the following fields of a big-endian file little-endian; an
    unaligned struct leaves the byte order big-endian.
26. In an unaligned struct the bits of all branches of `if` and `switch` are added up, and arrays are counted once, when the
    compiler checks for whole bytes. Field names must differ across branches and cases; two of the repository's own examples
    (`examples/features/conditionals/if_else.cnd`, `arrays/array_pre.cnd`) are refused by the modelled parser.
27. Lexer: newlines inside string literals are not counted (`C49_line_false`).

### Tools
28. Formatter: not idempotent (`C50_idempotent_false`); a quotation mark in a block comment makes it change a string
    literal (`C50_strings_false`).
29. `cnd inspect` prints the key of ARR_EOF and the operands of SWITCH_TABLE as instructions (`C54_false_eof`, `C54_false_table`),
    and its pointer passes the end for a truncated float range check (`C54_past_end`).
30. `cnd encode` writes 0x7FFFFFFF for every `uint32` from 2^31 (`C63_saturates`, `C63_u32_witness`): it uses `valueint`. 64-bit
    numbers from 2^53 are rounded (`C63_u64_witness`).
31. JSON, arrays of single bytes: the binding accepts the VM's bulk transfer and does nothing. Decoding shows the array twice, empty,
    encoding leaves zeros, and later fields go into the array (`C63_bytes_decode_witness`, `C63_bytes_encode_witness`).
32. JSON, empty arrays are never closed, later fields become elements (`C63_empty_witness`).
33. JSON, `string prefix u32` in a big-endian packet: length read with the wrong byte order, read outside the packet
    (`C63_prefix_witness`).
34. JSON, a string of maximal length without end mark is read on, past the end of the packet (`C63_string_witness`).
35. JSON, 32 nested structs write outside the binding's stack (`C63_nesting_witness`).
36. JSON, names are compared without case, `a` and `A` get the same value (`C63_case_witness`); a condition on a member of an earlier
    struct asks the wrong object and fails (`C63_member_witness`).
37. JSON, constants in arrays are shown, but encoding does not step over them (`C63_constant_witness`).
38. `load_il` of the tools does not check that the strings it counts are in the file (strlen past the end) nor the version
    (`C64_false`).
39. Packets and values that a compiled program cannot handle, each from source text of one line (`C66_false_*`): an array
    with a `u32` prefix whose element is only an `@optional` field never finishes on FF FF FF FF 00; an `@optional` enum field
    reads before an empty packet; `@add(1) i64` overflows on the largest number; `@expr(1 << n)` shifts by what the packet
    says; `@pad(72)` cannot be encoded without a shift by 64 or more, whatever the host does; a string after `@pad(16)` is
    read from outside a packet of one byte.
40. Bytes that are accepted though they are no packet of any record (`C68_false_*`): `string s max 2` takes "abc", reports three
    characters and goes on reading at the `c`; `u8 xs[] prefix u32` takes FF FF FF FF 05 as an array of one element; with
    `@optional @range(5, 10) u8 x` missing at the end of the packet, the range check reads the previous field once more, and if
    that is in the range, `x` is reported as 0.
41. Language server: after `Content-Length: -1` it allocates nothing and reads up to 2^64 - 1 bytes there (`C69_false_length`).
42. Language server: the URIs of definitions are not percent-encoded, so `/a%41` opens `/aA` (`C70_false_percent`); `isalpha` and
    `isxdigit` are called with negative numbers for non-ASCII paths (`C70_false_ctype`).
43. Language server: `textDocument/didClose` has a handler that is never called; old texts stay (`C71_false_close`). Formatting reads
    the file, not the document, and so discards unsaved changes (`C71_false_unsaved`); its range ends at line 999999 (`C71_false_long`).
44. Language server: hovering over a symbol with more than 4096 characters of documentation writes outside `msg`, since the value of
    `snprintf` is added to the offset (`C72_false_long`).
45. Language server: no symbol is found behind a string that contains a newline (`C73_false_string`), or with the cursor directly
    before an identifier that follows a token, as in `(a` (`C73_false_start`).
46. Language server, completion: ARR_EOF, ARR_DYNAMIC, SWITCH_TABLE and EMIT are not skipped with their operands (`C74_false_eof`),
    raw bytes and constants are not offered (`C74_false_kinds`), and fields used in conditions are offered repeatedly though the
    comment says once (`C74_false_once`).
47. A documentation comment behind a decorator or an `@import`, where one writes it for the first declaration of a file, is refused as an unexpected
    token (`C76_false_doc`).
48. Language server: the document itself is not entered as imported, so of a file in an import cycle, which the compiler accepts,
    duplicate definitions are reported (`C76_false_editor`).
49. Go binding: a Go string with a NUL byte is cut there without an error (`C77_false_nul`).
50. A NUL-terminated string that fills its maximum has no NUL in the packet; the callback is given only its beginning (`C78_terminated_false`), so
    Go's `String()` reads further than the field, and outside the packet if no NUL follows (`C77_false_terminated`).
51. Go binding: accessors do not look at `Value.Type()`; a setter wider than the field writes over the VM's stack (`C77_false_wide`).
52. Go binding: slices of 2^31 to 2^32 - 1 bytes crash when copied back, of longer ones only the length modulo 2^32 is copied (`C77_false_long`);
    received strings of 2^31 bytes and more crash (`C.int`).
53. `@poly` and `@spline` on float fields are accepted and not applied: the value is converted to an integer and reported as such
    (`C61_float_poly_false`).
54. `@scale`: encoding cuts the quotient towards 0 instead of rounding. With `@scale(0.01)` a decoded 29 is encoded as 28 (`C83_false_scale`).
55. `@poly`: encoding begins Newton's method at 0 and gives up where the slope is 0, so for `@poly(0, 0, 1)` everything is encoded as 0
    (`C83_false_square`); the fixed bound 0.001 makes 0 of small values (`C83_false_small`), and what is found is cut, so that a value
    reached from below comes out 1 too small (`C83_false_below`).
56. `@spline`: below the first point decoding uses the last line, not the first (`C83_false_under`); outside the points encoding gives 0
    (`C83_false_outside`).
57. Arrays to the end of the packet (`@eof`): encoding goes on as long as the buffer has room, not as long as there are elements, so a record
    goes only into a buffer of exactly its length. A host that has no more elements makes it fail (`C84_false_spare_room`). `cnd encode`
    always uses 1024 bytes (cmd_encode.c 20), and its JSON host answers 0 for what is missing, so the file always has 1024 bytes.
58. OP_ARR_EOF tells the host nothing at its start. The JSON tools therefore do not enter the array: decoding makes each element a member of
    the same name, encoding `{"a": [1, 2]}` writes zeros, without an error (`C84_false_json`).
59. An empty `@eof` array leaves its frame on the loop stack; inside another array the outer loop takes that frame for its own and ends early:
    `struct S { u16 x; @eof u16 rest[]; } packet P { S items[3]; }` accepts a packet with one of three elements (`C84_false_inside`).
60. `struct S { } packet P { @eof S items[]; }`: one byte keeps the decoder busy for ever (`C84_false_endless`).
61. `cnd decode --hex` never shows an array of bytes as digits. `handle_array_start` (json_binding.c 32-42) skips the operands of the array
    instruction a second time and looks at a wrong byte, so the array is announced as an ordinary one; then the fast path for byte arrays
    announces it again as OP_RAW_BYTES, which begins a string of digits that no OP_ARR_END ends. `packet P { u8 data[4]; u8 n; u16 m; }`
    is shown as `{"data": [], "data": ""}`: `n` counts as another byte of the array, `m` becomes a child of a string
    (`C85_false_bytes`).
62. With `--hex` an array of `struct S { u16 a; u8 b; }` is shown as the string of the bytes `b`; `a` is lost (`C85_false_structs`).
63. With `--hex` an array `@range(0, 16) u8 data[3]` is shown as digits and `@range(0, 15) u8 more[2]` as numbers, because the byte looked at
    is the upper limit, and 16 is the opcode of a byte (`C85_false_limits`).
64. `gen_bindings` carries `last_val` over from one enumeration to the next: an enumeration that leaves its first value to C gets wrong
    values in Go, Python and TypeScript (`C86_false_first`). concordia.h gives all its enumerations a first value, and the model of the
    generator makes of it exactly the bytes of go/consts.go.
65. `gen_bindings` takes the value of the second of two enumerators on a line for the first, values in `/* */` comments for real ones, and
    the first token of a sum for the sum (`C86_false_lines`); `OP_A_1` and `OP_A1` get the same name (`C86_false_names`); the 257th
    constant of a kind is written behind the table (`C86_false_many`). The Python and TypeScript files have no byte orders.
66. Completion in `@count(`, `@len(` and `@expr(` within a packet offers no fields, since only structs are registered (`C87_false_packet`);
    `packet P { u8 n; @count(` gets an empty list.
67. Completion forgets the outer of two nested decorators when the inner one is closed (`C87_false_nested`). No accepted program nests
    them (`C87_context_program`). The cursor's column is taken for a number of bytes, while the protocol counts UTF-16 units (C73 has the
    same); with non-ASCII comments before the cursor on its line, the context is that of another place.
68. Diagnostics are shown in the wrong line behind a string that contains a newline, since the lexer does not count it, and in the wrong
    column behind a carriage return that is not followed by a newline, which begins a column but not a line (`C88_false_lines`).
69. Messages are given at the parser's current token, which mostly is the one *behind* the token that is wrong: a second field of the same
    name is reported at its semicolon, a missing operand at the token behind the one that was found instead (`C88_behind`). Errors in an
    imported file are reported in the document that imports it, at the line and column they have in the imported file (read off the code;
    imports are outside C88).
70. The formatter writes an empty line behind every `;`, `{` and comment that ends a line of the source (the token sets newline_pending to
    1 and the newline of the source makes it 2), so formatting a normally written file doubles its lines; and a comment behind a field on
    the same line is moved to the line below, where it reads as a comment on the next field (`FmtDemo.formatted`). Tokens are not affected.
71. The formatter writes the space in front of `{` twice when the source has one (`packet P {` becomes `packet P  {`), so its own output is
    not a fixed point: `packet P{u8 a;}` changes once more when formatted again (`C90_twice`). A text that ends inside a string gains a line
    end every time (`C90_open_false`).
72. The checksum covers the bytes before it but not how many there are, and bytes behind the last field are not looked at. So with a
    length in the packet, damage to the length alone can go unnoticed: `@prefix(u8) u8 data[]` with CRC-16 accepts `02 F0 E1 32 5C` and
    also `00 F0 E1 32 5C` (`C91_variable_false`).
73. In decode mode `OP_ALIGN_PAD` moves the cursor without a check (vm_exec.c 1045-1047), so a packet that ends inside padding is
    accepted, with the cursor behind its end; and a host that writes to the value it is handed for the start of a fixed array changes the
    number of rounds (the machine passes the address of its own counter). C91 excludes such hosts (`Steady.count`).
74. Bit fields read zeros behind the end of the packet instead of failing, so an array of bit-field structs takes as many rounds as its
    count says, whatever the size of the packet: four bytes (`fe ff ff ff`) keep the decoder busy for 2^34 instructions and as many host
    calls (`C92_false_bits`). The same holds for elements that are empty structs, padding or `@optional` fields only. Elements with one
    plain field are safe (C92).
75. An `@optional` field that does not fit the output buffer is dropped without an error when encoding: the host is asked for the value (it
    is shown 0), the answer is thrown away, and `cnd_execute` reports success with a shorter packet (`C93_false_optional`). The mark is meant
    for packets that end early when decoding. Likewise a bit field is cut to the bits left, in both directions (`C93_false_bits`, cf. C13).
76. `cnd encode` and `cnd decode` ignore what `write_file_bytes` and `write_file_text` return (cmd_encode.c 45, cmd_decode.c 51): if the output
    file cannot be opened they exit with 0, `cnd decode` even prints `Decoded to …` (`C94_false_encode`, `C94_false_decode`). `cnd compile` and
    `cnd fmt` look at it and exit with 1.

77. Packets are in no registry: the language server's outline never lists a packet, its definition cannot be gone to and nothing is shown for it
    (`C95_false_packet`).
78. The outline of a document that imports files lists what those declare as symbols of the document itself, with the lines they have in the other
    file (cmd_lsp.c 840, 859: every location gets the document's URI), possibly behind the end of the document (`C95_false_imported`).
79. `handle_document_symbol` reads the file from disk (cmd_lsp.c 812) while `handle_definition` and `handle_hover` use the text in the editor:
    before saving, the outline is that of another text (`C95_false_saved`).
80. The definition of a decorator is answered with the URI `file://built-in`, line 0, which no editor can open (`C95_false_builtin`); a field named
    like a struct is answered with the struct (`C95_false_field`); behind the first error of a document no declaration is known
    (`C95_false_error`).

81. A request whose method the server does not know is never answered (cmd_lsp.c 1145-1170 has no last `else`): the client waits for ever, where the
    protocol asks for the error MethodNotFound (`C96_false_unknown`). A message whose text is not JSON, or of length 0, ends the server with exit code 0
    (`C96_false_garbage`).
82. The handlers use `uri_item->valuestring` and `cJSON_GetObjectItem(pos, "line")->valueint` without a look: a request without parameters, and a
    change of a document whose URI is no string, use a null pointer (`C96_false_params`, `C96_false_uri`).
83. Requests are answered before `initialize` and after `shutdown` (`C96_false_order`); `triggerCharacters` is a string, the protocol has a list of
    strings (`C96_false_trigger`); imports are read from disk even if the imported document is open with another text (`C96_false_imported`).
84. `init_vm` of the wasm bridge reads the offset of the bytecode from files of any length (`C97_false_short`), and it and the C++ demonstration take
    `size - bytecode_offset` without comparing first (`C97_false_offset`: the program is then memory behind the file) and do not look at magic or version
    (`C97_false_magic`). They should call `cnd_program_load_il`. The callbacks do not look at the type: with another schema they write four bytes to a
    variable of one (`C97_false_schema`).
85. `buf_append` reads its source after `realloc`, so a buffer may not be appended to itself (`C98_false_alias`). The compiler does not do it: the only
    sources in the heap are bytecodes of structs complete before, and a struct inside itself is refused before the copy.

86. `strreg_add` and `enumreg_add` return a pointer into an array that the next call may move (`C99_false_stale`). `parse_struct` and `parse_enum`
    keep it over the parsing of the body. No body can hold another declaration, so it stays good (`C99_parser`); were declarations ever
    nested, or an import allowed inside a body, it would be used after free.

87. The compiler itself has undefined behaviour on small texts (`C100_false`): a literal -9223372036854775808, an enum value 9223372036854775807 (the
    next value is computed even if there is none), a documentation comment inside an expression, names of nested fields of 512 bytes and more (three
    levels of structs with names of 255 letters). Nothing else of this kind is met by texts that pass the check of C100.

88. The fuzzer's report stops at CND_ERR_CRC_MISMATCH: runs that end with an arithmetic error are counted but not shown. Over a program that divides by
    zero the report says 0 everywhere (`C101_false_report`). The seed 0 (time() a multiple of 2^32) gives only empty packets (`C101_packets`).
89. `hexview` counts bytes in an `int`: undefined behaviour on files of 2^31 bytes and more (`C102_false_long`).
90. The helpers of `nob_concordia.h` call the tool as `cnd compile IN -o OUT` and `cnd encode SCHEMA JSON -o OUT`, but the tool takes its arguments by position: the image or packet goes to a file named `-o`, `OUT` is never written, and the helper answers yes (`C103_false_untouched`, `C103_false_compile`, `C103_false_encode`). `cnd_decode` passes one word too few and always fails (`C103_false_decode`).
91. The callback of the kitchen sink example trusts counts from the packet: a `dynamic_len` above 256 or a `str_count` above 10 makes it store behind its arrays (`C104_false_bytes`, `C104_false_strings`). It copies `reason`, a string without a terminator in the packet, up to the next zero: bytes of the following fields become part of it, and the copy may leave the packet (`C104_false_reason`). (The example's own `main` only decodes what it has encoded.)
92. Dead-string elimination does not step over the type behind OP_EMIT (`C48_false_emit`): an expression directly behind a computed field may read another field than the source names (`C62_false_key`: `struct V { u8 y; } packet P { V p; @expr(1) u8 a; @expr(p.y) u8 b; }` computes `b` from `a`). The repository's own `examples/kitchen_sink/kitchen_sink.cnd` is compiled wrongly in this way (`C62_false_example`): `is_grounded` loads `matrix` in place of `position.y`, and, since the last pass walks through spline points as code (as in `C48_false_poly`), the field `spline_val` gets the key of `has_extra`.

## 6. Testing the theorems

`seeded/LOG.jsonl` has one line per seeded fault: the model is edited as a realistic bug would, everything is rebuilt, and
the theorems that stop proving are recorded. A fault that breaks a claim without breaking a theorem leads to a tighter theorem
(`tightened`).
