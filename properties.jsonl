{"id": "C01", "title": "Scalar fields survive encode then decode", "statement": "For every scalar wire type (u8..u64, i8..i64, f32/f64 bit patterns, bool), every value of that type, both byte orders, every buffer and every position with enough room: encoding one field and then decoding it at the same position hands the host exactly the value it supplied, and both runs leave the cursor exactly one field further on.", "quantifier": "all scalar types, all 2^w values, both endiannesses, all buffers, all cursor positions with room", "why_tests_cant": "2^64 values times unbounded buffers and positions; a sampled test cannot exclude a single bad shift in one byte lane.", "anchors": ["src/vm/vm_exec.c: cnd_execute (OP_IO_U8..OP_IO_BOOL), HANDLE_PRIMITIVE, HANDLE_FLOAT", "src/vm/vm_internal.h: read_u16/u32/u64, write_u16/u32/u64"]}
{"id": "C02", "title": "Wire layout of scalars is the documented byte order", "statement": "A w-byte scalar written little-endian at position p puts byte i of the value (value / 256^i mod 256) at p+i; written big-endian it puts it at p+w-1-i; no other byte of the buffer changes and the buffer length is unchanged.", "quantifier": "all values, widths 1,2,4,8, both endiannesses, all buffers and positions with room", "why_tests_cant": "Interoperability with other implementations depends on every byte lane for every value, not on the round trip of one implementation with itself.", "anchors": ["src/vm/vm_internal.h: write_u8, write_u16, write_u32, write_u64, read_*"]}
{"id": "C03", "title": "Encoding only writes inside the region it consumes", "statement": "In any run of the VM in which the host does not write through buffer pointers, every step leaves the buffer length unchanged and changes no byte before the cursor position at the start of the step nor at/after the position reached at its end (rounded up to a whole byte).", "quantifier": "all bytecode, all hosts, all reachable states, every step", "why_tests_cant": "Needs to hold for every instruction sequence and state, including malformed bytecode.", "anchors": ["src/vm/vm_exec.c: cnd_execute", "src/vm/vm_internal.h: write_bits"]}
{"id": "C04", "title": "Decoding does not modify the input packet", "statement": "In decode mode the packet buffer is bit-for-bit identical at every point of the run to the buffer passed to cnd_init (for hosts that do not write through the pointers they are handed).", "quantifier": "all bytecode, all hosts, all buffers, all steps", "why_tests_cant": "An invariant over every execution of every program.", "anchors": ["src/vm/vm_exec.c: cnd_execute, OP_CONST_WRITE"]}
{"id": "C05", "title": "No out-of-bounds packet access while encoding", "statement": "When encoding, no instruction ever reads or writes the packet buffer outside [0, data_len), whatever the bytecode, host answers, or buffer size; running out of room is reported as an error code instead.", "quantifier": "all bytecode, hosts, buffer sizes; encode mode", "why_tests_cant": "Memory safety is a statement about all executions; fuzzing only samples them.", "anchors": ["src/vm/vm_exec.c: cnd_execute, HANDLE_PRIMITIVE, OP_ENUM_CHECK, OP_CRC_16, OP_CRC_32", "src/vm/vm_internal.h: write_bits"]}
{"id": "C06", "title": "No out-of-bounds packet access while decoding", "statement": "When decoding an arbitrary (hostile) packet, no instruction ever reads the packet buffer outside [0, data_len).", "quantifier": "all bytecode, hosts, packets; decode mode", "why_tests_cant": "Memory safety against hostile input must hold for every packet.", "anchors": ["src/vm/vm_exec.c: cnd_execute, OP_ALIGN_PAD, OP_STR_NULL, OP_ENUM_CHECK, OP_RANGE_CHECK, OP_CRC_16"]}
{"id": "C07", "title": "Expression stack and loop stack never exceed their fixed size", "statement": "At every point of every run the expression stack holds at most 8 values and the loop stack at most 8 frames; a program that would exceed either gets an error code and the contexts' arrays are never indexed outside their bounds.", "quantifier": "all bytecode, hosts, buffers, modes and all steps of the run", "why_tests_cant": "Invariant over all reachable states of all programs.", "anchors": ["src/vm/vm_exec.c: stack_push, stack_pop, loop_push, OP_ARR_EOF", "include/concordia.h: CND_MAX_EXPR_STACK, CND_MAX_LOOP_DEPTH"]}
{"id": "C08", "title": "The cursor only moves forward", "statement": "The packet position (byte cursor, bit offset) never decreases from one instruction to the next, the bit offset stays in 0..7, and one instruction that does not hand bulk data over moves it by a bounded amount.", "quantifier": "all bytecode, hosts, buffers, modes, every step", "why_tests_cant": "Invariant over all transitions.", "anchors": ["src/vm/vm_exec.c: cnd_execute", "src/vm/vm_internal.h: read_bits, write_bits"]}
{"id": "C09", "title": "Bit fields survive encode then decode", "statement": "Writing an n-bit field (1<=n<=64) at any bit position with n bits of room and reading n bits back from the same position in the same byte order returns the value modulo 2^n, and leaves the position exactly n bits further on in both directions.", "quantifier": "all widths 1..64, all values, all byte/bit positions, both endiannesses, all buffers", "why_tests_cant": "64 widths x 8 offsets x 2^64 values x byte orders, plus the aligned fast path versus the bit loop.", "anchors": ["src/vm/vm_internal.h: read_bits, write_bits", "src/vm/vm_exec.c: OP_IO_BIT_U"]}
{"id": "C10", "title": "Writing a bit field touches only its own bits", "statement": "Writing an n-bit field at bit position p changes no bit of the buffer outside the n consecutive stream bits starting at p (stream order per byte order), so neighbouring bit fields in the same byte are preserved.", "quantifier": "all widths, positions, values, endiannesses, buffers", "why_tests_cant": "Quantifies over all neighbouring contents and alignments.", "anchors": ["src/vm/vm_internal.h: write_bits"]}
{"id": "C11", "title": "Aligned bit-field fast path equals the bit-by-bit path", "statement": "For byte-aligned fields of 8, 16, 32 or 64 bits the fast path gives the same buffer, value and position as the general bit loop would, for both byte orders (reads and writes).", "quantifier": "all values, buffers, positions, endiannesses, widths 8/16/32/64", "why_tests_cant": "Equivalence of two code paths over all inputs.", "anchors": ["src/vm/vm_internal.h: read_bits, write_bits"]}
{"id": "C12", "title": "Signed bit fields decode to the number that was encoded", "statement": "sign extension of an n-bit raw value gives the unique integer in [-2^(n-1), 2^(n-1)) congruent to it modulo 2^n; so every signed value that fits n bits survives encode then decode.", "quantifier": "all n in 1..64, all raw values, all positions and byte orders", "why_tests_cant": "All widths and all values.", "anchors": ["src/vm/vm_exec.c: sign_extend, OP_IO_BIT_I"]}
{"id": "C13", "title": "A bit field that does not fit the packet is reported", "statement": "If fewer bits remain in the buffer than a bit field needs, encode and decode stop with an out-of-bounds error rather than reporting success.", "quantifier": "all widths, positions and buffers with insufficient room", "why_tests_cant": "Needs every shortfall/alignment combination.", "anchors": ["src/vm/vm_internal.h: read_bits, write_bits", "src/vm/vm_exec.c: OP_IO_BIT_U, OP_IO_BIT_I, OP_IO_BIT_BOOL"]}
{"id": "C14", "title": "NUL-terminated strings survive encode then decode", "statement": "Encoding a NUL-free string with maximum length m writes min(len,m) bytes plus a terminator; decoding with the same m hands the host a pointer to exactly those bytes followed by NUL and leaves the cursor after the terminator. Too little room is reported as out-of-bounds and changes nothing.", "quantifier": "all strings, all maximum lengths, all buffers and positions", "why_tests_cant": "Unbounded strings, boundary at len = m, and arbitrary stale buffer contents.", "anchors": ["src/vm/vm_exec.c: OP_STR_NULL"]}
{"id": "C15", "title": "Length-prefixed strings survive encode then decode", "statement": "Encoding a NUL-free string with a 1/2/4-byte length prefix writes min(len, 2^(8w)-1) in the current byte order followed by that many bytes; decoding hands the host exactly these bytes and advances past them.", "quantifier": "all strings, prefix widths, byte orders, buffers and positions", "why_tests_cant": "Unbounded strings and the saturation boundary.", "anchors": ["src/vm/vm_exec.c: HANDLE_STRING_PRE, OP_STR_PRE_U8/U16/U32"]}
{"id": "C16", "title": "Arrays of scalars survive encode then decode", "statement": "For a fixed, length-prefixed or host-counted array of any scalar type, encoding with a host that supplies n elements and decoding gives the host back the same n and the same n elements in order; the cursor ends after prefix + n*size bytes; one array-start and one array-end notification bracket them.", "quantifier": "all element types, counts n >= 1, element values, byte orders, buffers", "why_tests_cant": "Unbounded n: proof by induction over the loop.", "anchors": ["src/vm/vm_exec.c: HANDLE_ARRAY_PRE, OP_ARR_FIXED, OP_ARR_DYNAMIC, OP_ARR_END, loop_push"]}
{"id": "C17", "title": "Bulk byte-array path is invisible on the wire", "statement": "An array of bytes handled through the bulk OP_RAW_BYTES host call produces the same packet, cursor and next instruction as the element-by-element loop used when the host declines the bulk call.", "quantifier": "all counts, byte contents, buffers, positions, keys", "why_tests_cant": "Equivalence of two code paths for all lengths and contents.", "anchors": ["src/vm/vm_exec.c: try_optimize_byte_array"]}
{"id": "C18", "title": "An empty array is skipped and the rest of the packet is processed normally", "statement": "When an array has zero elements execution continues at the instruction following the array's matching end marker, for every array body.", "quantifier": "all array bodies (all element types, key ids, nestings) and counts = 0", "why_tests_cant": "The skip scans raw bytes, so it depends on every operand byte value in the body.", "anchors": ["src/vm/vm_exec.c: skip_loop_body"]}
{"id": "C19", "title": "Constant fields: writer emits, reader accepts exactly that value", "statement": "Encoding a constant field writes the constant; decoding succeeds if and only if the packet holds the constant's bytes in the current byte order, otherwise it reports a validation error; the host never sees a wrong value.", "quantifier": "all scalar types, constants, buffers, positions, byte orders", "why_tests_cant": "iff over all packet contents.", "anchors": ["src/vm/vm_exec.c: OP_CONST_CHECK"]}
{"id": "C20", "title": "Range checks accept exactly the closed interval in the field's own signedness", "statement": "After an integer field of type t has been processed, a range check for t with bounds lo, hi passes if and only if lo <= value <= hi compared as that type (signed for signed types), otherwise validation error; the packet and cursor are unchanged.", "quantifier": "all integer types, bounds, values, buffers, byte orders", "why_tests_cant": "All triples (lo,hi,value) incl. sign boundaries.", "anchors": ["src/vm/vm_exec.c: CHECK_RANGE, OP_RANGE_CHECK"]}
{"id": "C21", "title": "Enum checks accept exactly the listed values", "statement": "After an integer field of type t has been processed, an enum check passes if and only if the value is one of the listed values, otherwise validation error; whichever entry matched, execution continues at the instruction after the list.", "quantifier": "all integer types, value lists of any length, values, buffers", "why_tests_cant": "Unbounded lists and the per-match program-counter adjustment.", "anchors": ["src/vm/vm_exec.c: OP_ENUM_CHECK, CHECK_ENUM"]}
{"id": "C22", "title": "Booleans on the wire are 0 or 1", "statement": "A bool field is accepted exactly when the byte is 0 or 1, in both directions; otherwise the run stops with a validation error and (when encoding) the packet is unchanged.", "quantifier": "all byte values, positions, buffers, modes", "why_tests_cant": "All byte values and states.", "anchors": ["src/vm/vm_exec.c: OP_IO_BOOL, OP_IO_BIT_BOOL"]}
{"id": "C23", "title": "A packet's own checksum verifies", "statement": "For every polynomial, initial value, xor-out, reflection flags and width (16/32), the checksum appended while encoding is accepted when the same bytes are decoded, and any different stored checksum is rejected with the CRC error.", "quantifier": "all CRC parameters, all packet prefixes, all lengths, byte orders", "why_tests_cant": "All parameter sets and unbounded data.", "anchors": ["src/vm/vm_exec.c: calc_crc, OP_CRC_16, OP_CRC_32"]}
{"id": "C24", "title": "Any corruption confined to one byte changes the checksum", "statement": "If the polynomial is odd (has its +1 term), two equally long messages that differ in exactly one byte have different checksums, for both widths, all init/xor-out/reflection settings; so such a corruption of a protected packet is always rejected.", "quantifier": "all messages, all positions, all byte errors, all odd polynomials and parameters", "why_tests_cant": "Error-detection guarantees quantify over all messages and error patterns.", "anchors": ["src/vm/vm_exec.c: calc_crc"]}
{"id": "C25", "title": "Table-driven CRC-32 equals the bitwise definition", "statement": "For the standard CRC-32 polynomial with reflected input and output the table-driven path returns the same checksum as the bitwise algorithm used for every other parameter set, for every message and initial value.", "quantifier": "all messages, initial values, xor-outs", "why_tests_cant": "256 table entries and unbounded messages; depends on reflecting the initial value.", "anchors": ["src/vm/vm_exec.c: crc32_table, calc_crc, reflect"]}
{"id": "C26", "title": "Integer transforms are inverted by the decoder", "statement": "With an add/sub/mul transform, the value the decoder hands to the host is exactly the value the host supplied to the encoder whenever the raw value fits the wire type (for mul: whenever the value is a multiple of the factor); a transform never leaks into the following field.", "quantifier": "all wire types, transform constants, engineering values for which no 64-bit overflow occurs", "why_tests_cant": "All value/constant pairs and narrowing per type.", "anchors": ["src/vm/vm_exec.c: vm_math_int_to_raw, vm_math_int_to_eng, HANDLE_PRIMITIVE"]}
{"id": "C27", "title": "Transform arithmetic is defined for every input", "statement": "No host value and no packet content can make an integer transform overflow or trap.", "quantifier": "all values, packets and transform constants", "why_tests_cant": "Absence of undefined behaviour for all inputs.", "anchors": ["src/vm/vm_exec.c: vm_math_int_to_eng, vm_math_int_to_raw"]}
{"id": "C28", "title": "Optional trailing fields", "statement": "Decoding a packet that ends before an optional scalar field succeeds, hands the host the value 0 for it and leaves the cursor where it is; if the field is present it is decoded exactly like a mandatory field; without the optional mark a missing field is an out-of-bounds error. The mark affects only the next field.", "quantifier": "all scalar types, packets, positions, flags", "why_tests_cant": "All truncation points.", "anchors": ["src/vm/vm_exec.c: OP_MARK_OPTIONAL, HANDLE_PRIMITIVE"]}
{"id": "C29", "title": "Sparse switch selects the first matching case, else the default", "statement": "A switch instruction transfers control to the offset of the first table entry equal to the discriminator, or to the default offset if none is, and to no other place; targets outside the program are reported as out-of-bounds.", "quantifier": "all tables, discriminators, offsets, programs", "why_tests_cant": "Unbounded tables, signed offsets.", "anchors": ["src/vm/vm_exec.c: OP_SWITCH"]}
{"id": "C30", "title": "Jump-table switch is equivalent to the sparse switch", "statement": "For every dense jump table whose entries lie inside the program, executing it has the same effect as executing the sparse switch with one case per table slot.", "quantifier": "all tables with min<=max, all discriminators, all programs containing them", "why_tests_cant": "Two encodings of the same construct must agree for all discriminators, including those outside [min,max].", "anchors": ["src/vm/vm_exec.c: OP_SWITCH_TABLE, OP_SWITCH"]}
{"id": "C31", "title": "Control transfers never leave the program", "statement": "Every jump, conditional jump and switch either continues at an offset in [0, program length] or stops with the out-of-bounds error; no bytecode byte outside the program is ever read.", "quantifier": "all bytecode (hostile), hosts, buffers", "why_tests_cant": "All 32-bit offsets from all positions, including wrap-around.", "anchors": ["src/vm/vm_exec.c: OP_JUMP, OP_JUMP_IF_NOT, OP_SWITCH, OP_SWITCH_TABLE"]}
{"id": "C32", "title": "Programs without backward jumps and read-to-end arrays terminate", "statement": "If every jump/switch offset is non-negative and no read-to-end array is used, execution finishes after a bounded number of instructions on every input with every host.", "quantifier": "all such programs, all hosts (adversarial counts), all buffers", "why_tests_cant": "Halting on all inputs with up to 8 nested 2^32-iteration loops cannot be tested.", "anchors": ["src/vm/vm_exec.c: cnd_execute, OP_ARR_END"]}
{"id": "C33", "title": "cnd_init makes a run independent of the context's history", "statement": "Running a program after cnd_init on a context that was used before (any history, including aborted runs) produces the same result, packet and host calls as on a fresh context.", "quantifier": "all previous context contents, programs, hosts, buffers", "why_tests_cant": "All histories.", "anchors": ["src/vm/vm_exec.c: cnd_init, cnd_execute"]}
{"id": "C34", "title": "Encoded bytes depend only on the host's values", "statement": "Two encode runs with the same program and host values into two different buffers of the same length produce the same bytes in the encoded region, whatever the buffers held before.", "quantifier": "all pairs of initial buffers, all programs and hosts", "why_tests_cant": "A two-run (non-interference) property.", "anchors": ["src/vm/vm_exec.c: cnd_execute", "src/vm/vm_internal.h: write_bits", "src/cli/cmd_encode.c"]}
{"id": "C35", "title": "Compiled image loads back to the same program", "statement": "For every list of NUL-free names and every bytecode, the .il image the compiler writes is accepted by the loader and yields the same bytecode, and every key id maps to its name and every name back to its id.", "quantifier": "all name lists (<= 65535), all bytecodes (total < 4 GiB)", "why_tests_cant": "Unbounded tables; inverse-function property.", "anchors": ["src/compiler/cndc.c: cnd_compile_file", "src/vm/vm_exec.c: cnd_program_load_il, cnd_get_key_name, cnd_get_key_id"]}
{"id": "C36", "title": "The image loader accepts only well-formed headers", "statement": "Loading succeeds exactly when the image has at least 16 bytes, the magic, version 1 and both offsets inside the image; the program's bytecode is then a suffix of the image. Otherwise the documented error is returned.", "quantifier": "all byte strings", "why_tests_cant": "All possible (hostile) files.", "anchors": ["src/vm/vm_exec.c: cnd_program_load_il"]}
{"id": "C37", "title": "Name lookup stays inside the image", "statement": "For every image the loader accepts, looking up key names and key ids reads only bytes of the image.", "quantifier": "all accepted images, all key ids and names", "why_tests_cant": "All hostile images.", "anchors": ["src/vm/vm_exec.c: cnd_get_key_name, cnd_get_key_id"]}
{"id": "C38", "title": "The verifier reads only the program", "statement": "cnd_verify_program terminates on every byte string and reads no byte outside it.", "quantifier": "all byte strings shorter than 2^32-20 bytes", "why_tests_cant": "All hostile inputs.", "anchors": ["src/vm/vm_verify.c: cnd_verify_program"]}
{"id": "C39", "title": "Verified programs execute only instructions the verifier saw", "statement": "If cnd_verify_program accepts a program, every instruction the VM executes starts at an instruction boundary of the verifier's walk and has all its operand bytes.", "quantifier": "all accepted programs, all executions", "why_tests_cant": "All programs and control paths.", "anchors": ["src/vm/vm_verify.c: cnd_verify_program", "src/vm/vm_exec.c: cnd_execute"]}
{"id": "C40", "title": "Compiled programs pass the verifier", "statement": "Every program the compiler emits for a valid schema is accepted by cnd_verify_program.", "quantifier": "all schemas", "why_tests_cant": "All schemas.", "anchors": ["src/vm/vm_verify.c: cnd_verify_program", "src/compiler/cnd_parser.c: parse_field, parse_if, parse_switch"]}
{"id": "C41", "title": "Integer expressions evaluate with 64-bit semantics", "statement": "The bytecode for an integer expression tree of stack depth <= 8, run on the VM, pushes exactly the value of the expression modulo 2^64 (comparison and logical results being 0/1), reports the arithmetic error exactly when a division or remainder by zero is evaluated, and changes neither packet nor cursor.", "quantifier": "all expression trees, all field values", "why_tests_cant": "Unbounded trees; structural induction.", "anchors": ["src/vm/vm_exec.c: BINARY_OP, UNARY_OP, OP_DIV, OP_MOD", "src/compiler/cnd_parser.c: parse_binary"]}
{"id": "C42", "title": "Operator precedence and associativity of expressions", "statement": "The compiler emits, for every flat expression of literals, fields and binary operators, the postfix code of the expression tree given by the documented precedence table with left associativity.", "quantifier": "all token sequences generated by expression trees", "why_tests_cant": "Unbounded expressions.", "anchors": ["src/compiler/cnd_parser.c: parse_precedence, parse_binary, rules"]}
{"id": "C43", "title": "Mixed integer/float arithmetic converts the integer operand", "statement": "When an integer expression is combined with a float expression the integer operand is converted to double and the float operand is used unchanged.", "quantifier": "all operand values", "why_tests_cant": "All operand values in both orders.", "anchors": ["src/compiler/cnd_parser.c: parse_binary", "src/vm/vm_exec.c: OP_SWAP, OP_ITOF"]}
{"id": "C44", "title": "Computed (@expr) fields written by the encoder are accepted by the decoder", "statement": "If a computed integer field is encoded with a value, decoding the same packet with the same field values passes the check.", "quantifier": "all integer types, all computed values, buffers", "why_tests_cant": "All values including those whose 64-bit form exceeds the wire width.", "anchors": ["src/vm/vm_exec.c: OP_EMIT"]}
{"id": "C45", "title": "Key ids are unique, stable and reversible", "statement": "Interning a name never changes ids already given out; equal names get equal ids and different names different ids; the id's slot holds that name (up to 65536 names).", "quantifier": "all sequences of intern requests", "why_tests_cant": "All histories of calls.", "anchors": ["src/compiler/cnd_utils.c: strtab_add"]}
{"id": "C46", "title": "Integer literals mean what they say", "statement": "A decimal literal parses to its value and a 0x literal to its hexadecimal value, with an optional minus sign negating it, for every value that fits in 64 bits.", "quantifier": "all literals of all lengths", "why_tests_cant": "Unbounded literals.", "anchors": ["src/compiler/cnd_utils.c: parse_number_i64, parse_number_u32, hex_char_to_int"]}
{"id": "C47", "title": "Struct inlining preserves code layout", "statement": "Inlining a struct's bytecode under a field prefix keeps its length and every byte that is not a key operand, so all relative jump offsets inside it stay valid.", "quantifier": "all struct bodies, prefixes, string tables", "why_tests_cant": "All bodies.", "anchors": ["src/compiler/cnd_utils.c: buf_append_with_prefix, get_opcode_size"]}
{"id": "C48", "title": "Dead-string elimination does not change what the program says", "statement": "After string-table optimisation every instruction of the program refers to the same name as before and nothing but key operands has changed.", "quantifier": "all bytecodes and string tables", "why_tests_cant": "Whole-program transformation over all programs.", "anchors": ["src/compiler/cndc.c: optimize_strings"]}
{"id": "C49", "title": "The lexer always makes progress and tokens are faithful slices", "statement": "On every source text lexing terminates; each token's text is a contiguous slice of the source lying after the previous token, nothing but whitespace and comments is skipped, and no byte after the terminating NUL is read.", "quantifier": "all source texts", "why_tests_cant": "All inputs.", "anchors": ["src/compiler/cnd_lexer.c: lexer_next"]}
{"id": "C50", "title": "Formatting preserves the program text", "statement": "Formatting a source changes only white space: the sequence of non-whitespace characters is identical.", "quantifier": "all sources", "why_tests_cant": "All inputs.", "anchors": ["src/compiler/cnd_fmt.c: cnd_format_source"]}
{"id": "C51", "title": "if/else compiles to exactly one branch", "statement": "For every condition value, the code emitted for if (c) {A} else {B} executes A and then continues after the statement when c is non-zero, and executes B and continues after it when c is zero.", "quantifier": "all conditions, all branch bodies, all continuations", "why_tests_cant": "All bodies and values.", "anchors": ["src/compiler/cnd_parser.c: parse_if", "src/vm/vm_exec.c: OP_JUMP_IF_NOT, OP_JUMP"]}
{"id": "C52", "title": "Whole packets survive encode then decode", "statement": "For every packet schema built from scalars, constants, strings, bit fields, nested structs, fixed and prefixed arrays (nesting <= 8), byte-order switches, range/enum checks and checksums, and every well-typed record of values: encoding succeeds when the buffer is large enough, decoding the result succeeds, and the decoder reports to the host exactly the values that were supplied, in order.", "quantifier": "all schemas (by structural induction), all records, all buffers", "why_tests_cant": "All schemas and all values: compositionality cannot be tested.", "anchors": ["src/vm/vm_exec.c: cnd_execute"]}
{"id": "C53", "title": "Every run that ends reports one of the documented codes, and non-zero codes for the documented reasons only", "statement": "Execution ends only with codes 0..8; the CRC error only from a checksum instruction in decode mode, the stack errors only from expression-stack/loop instructions, the callback error only if the host returned an error for that call.", "quantifier": "all runs", "why_tests_cant": "All executions.", "anchors": ["src/vm/vm_exec.c: cnd_execute, cnd_error_string"]}
{"id": "C54", "title": "The disassembler walks the same instructions as the VM", "statement": "For every program, the instruction boundaries printed by 'cnd inspect' coincide with those the VM decodes in straight-line execution.", "quantifier": "all opcodes and operand bytes", "why_tests_cant": "All opcode/operand combinations.", "anchors": ["src/cli/cmd_inspect.c: cmd_inspect", "src/vm/vm_exec.c: cnd_execute"]}
{"id": "C55", "title": "Bursts as wide as the checksum are always detected", "statement": "If the polynomial is odd, two messages that differ only inside a window of two consecutive bytes (CRC-16) or four consecutive bytes (CRC-32) have different checksums; so such a corruption of a protected packet is rejected with the CRC error.", "quantifier": "all messages, windows, contents of the window, all odd polynomials and parameters", "why_tests_cant": "2^32 error patterns at every position of unboundedly long messages.", "anchors": ["src/vm/vm_exec.c: calc_crc, OP_CRC_16, OP_CRC_32"]}
{"id": "C56", "title": "The checksum is the textbook CRC", "statement": "For every parameter set the stored checksum equals the remainder of the bit-serial polynomial division that defines the CRC with these parameters (width, polynomial, initial value, reflection, xor-out).", "quantifier": "all messages, all parameters", "why_tests_cant": "Check values cover a handful of named CRCs on one message each.", "anchors": ["src/vm/vm_exec.c: reflect, calc_crc"]}
{"id": "C57", "title": "Encoding never changes bits already written", "statement": "One instruction of an encode run does not change any packet bit before the current bit position (in the current bit order); a field once written stays as written.", "quantifier": "all programs, states, hosts", "why_tests_cant": "Needs every pair of instructions at every bit offset.", "anchors": ["src/vm/vm_exec.c: cnd_execute", "src/vm/vm_io.c: write_bits"]}
{"id": "C58", "title": "The compiler ends on every source text", "statement": "For every sequence of bytes given as source text, lexer, parser and code generator stop, after a number of nested calls linear in the length of the text, with an image, with error messages, or in undefined behaviour; and the outcome does not depend on the recursion bound used in the model.", "quantifier": "all byte sequences of any length (including NUL bytes, unterminated comments and strings, nested blocks, garbage)", "why_tests_cant": "Non-termination is not observable by a test, and error recovery loops (parser continues after a message) are entered by malformed texts of unbounded variety.", "anchors": ["src/compiler/cnd_parser.c: parse_top_level, parse_struct, parse_packet, parse_enum, parse_block, parse_field, parse_if, parse_switch, parse_precedence", "src/compiler/cnd_lexer.c: lexer_next", "src/compiler/cndc.c: cnd_compile_file"]}
{"id": "C59", "title": "The compiler translates source texts as the language definition says", "statement": "For every program of the language (files with version and byte-order marks, enums, structs, unaligned structs, one packet; fields with all decorators, arrays, strings, bit fields, struct and enum types, if/else chains, switch with enum labels and default, padding, documentation), given by a syntax tree for which the compositional definition in Source.lean yields a string table and byte code, the compiler accepts every source text with the tokens of that tree (any white space and comments) and writes exactly the image of that table and code, unused strings dropped; and every such tree with properly spelt names and numbers has such a text.", "quantifier": "all programs of the grammar (unbounded size and nesting), all source texts, all recursion bounds above the one of C58", "why_tests_cant": "Unboundedly many programs; back-patched jump distances, switch tables and string ids depend on everything before and inside them.", "anchors": ["src/compiler/cnd_parser.c: parse_top_level, parse_struct, parse_packet, parse_enum, parse_block, parse_field, parse_if, parse_switch, parse_decorators", "src/compiler/cnd_lexer.c: lexer_next", "src/compiler/cndc.c: cnd_compile_file"]}
{"id": "C60", "title": "What the source says about a field is in the image", "statement": "Bounds, widths, limits, terminators, byte orders and CRCs given for a field of an accepted source are present in the byte code with the value the source gives; in particular @range(lo, hi) lets pass exactly the values from lo to hi.", "quantifier": "all integer types, all pairs of literals, all packets", "why_tests_cant": "The values lost are those outside the tested ranges (300 for u8, width 257, enum value 257).", "anchors": ["src/compiler/cnd_parser.c: parse_field, parse_enum, parse_top_level", "src/vm/vm_exec.c: OP_RANGE_CHECK"]}
{"id": "C61", "title": "Round trip of packets with choices, transforms and computed fields", "statement": "For every packet description built of fields, structures, arrays, if/else, switch (with and without default, small and dense tables), integer transforms, scalings, polynomials, splines, optional marks and fields computed by expressions, every record that fits it is encoded without error if the buffer can hold it, and decoding the packet, whatever bytes follow, succeeds and reports exactly the events of the record.", "quantifier": "all descriptions (unbounded size and nesting up to the loop limit), all records, all buffers, all bytes after the packet", "why_tests_cant": "The code run depends on values in the record: every combination of branches, cases, counts and computed values is a different path.", "anchors": ["src/vm/vm_exec.c: cnd_execute (all of the I/O, transform, jump, switch and expression opcodes)", "src/compiler/cnd_parser.c: parse_if, parse_switch, parse_field"]}
{"id": "C62", "title": "From source text to packet and back", "statement": "For every accepted source text, the compiled image loads, every field key of its code is the id of the name the source gives that field (both directions of the string lookup), every record that fits the packet the source describes is encoded by the image without error if the buffer can hold it, and decoding the packet by the image, whatever bytes follow, gives back exactly the record.", "quantifier": "all source programs, all spellings of them, all records, all buffers, all bytes after the packet", "why_tests_cant": "Composition of lexer, parser, code generation, string numbering, dead-string elimination, image writer, loader and VM on unboundedly many programs and records.", "anchors": ["src/compiler/cndc.c: cnd_compile_file", "src/compiler/cnd_parser.c", "src/compiler/cnd_lexer.c", "include/concordia.h / src/vm/vm_exec.c: cnd_program_load_il, cnd_get_key_name, cnd_get_key_id", "src/vm/vm_exec.c: cnd_execute"]}
{"id": "C63", "title": "JSON tools round trip", "statement": "For every packet description and every record that fits it, `cnd encode` on the JSON document of the record succeeds and gives the packet of the record, and `cnd decode` on that packet, whatever follows it, shows the same document; the binding never leaves its own data structures.", "quantifier": "all packet descriptions, all records, all documents, all bytes after the packet, all numbers", "why_tests_cant": "The binding keeps two stacks and a growing tree in step with the calls of the VM; every nesting of structures, arrays and choices, every clash of names and every number is a different case.", "anchors": ["src/cli/json_binding.c: json_io_callback, handle_array_start, handle_primitive, get_json_key", "src/cli/cmd_encode.c: cmd_encode", "src/cli/cmd_decode.c: cmd_decode"]}
{"id": "C64", "title": "All loaders see the same program", "statement": "The command line tools' image loader and the Go binding's loader give, for every image the compiler writes, the names and bytecode it was written from, and for every file at all they agree with the VM's loader and stay inside the file.", "quantifier": "all names and bytecode; all files", "why_tests_cant": "Files are arbitrary bytes; the string table may be cut anywhere.", "anchors": ["src/cli/cli_helpers.c: load_il", "go/concordia.go: LoadProgram", "src/vm/vm_exec.c: cnd_program_load_il, cnd_get_key_name"]}
{"id": "C65", "title": "From source text and JSON document to packet and back", "statement": "For every accepted source text and every record of the packet it describes: `cnd compile` gives an image the other tools load, `cnd encode` with it on the JSON document of the record succeeds, and `cnd decode` with it on the packet written, whatever follows, shows the same document.", "quantifier": "all source programs, all spellings of them, all records, all bytes after the packet", "why_tests_cant": "Composition of compiler, image writer, both loaders, VM and JSON binding over unboundedly many programs and documents.", "anchors": ["src/cli/cmd_compile.c", "src/cli/cmd_encode.c", "src/cli/cmd_decode.c", "src/cli/cli_helpers.c: load_il", "src/cli/json_binding.c"]}
{"id": "C66", "title": "Every compiled packet program handles every input", "statement": "Running the program compiled from a packet description, encoding or decoding, ends with a result after finitely many instructions and never meets undefined behaviour, whatever bytes are in the packet, whatever the host callback answers and whatever the context was used for before.", "quantifier": "all packet descriptions, all source spellings, all packets, all hosts and host states, both modes", "why_tests_cant": "Fuzzing samples packets and hosts of a few programs; the claim is over all programs, all packets of any length and all callback behaviours.", "anchors": ["src/vm/vm_exec.c: cnd_execute", "src/vm/vm_io.c", "src/compiler/cnd_parser.c"]}
{"id": "C67", "title": "Packets are self-delimiting and determine their record", "statement": "For a packet description with at most eight nested arrays (the VM's loop limit): if two packets encoded from records of the description, each followed by arbitrary bytes, are the same bytes, then the packets are equal and the records are equal. So different records have different packets, no packet is a proper beginning of another, and a stream of packets without separators can be split in only one way.", "quantifier": "all packet descriptions, all pairs of records, all buffers and contexts used for encoding, all following bytes, streams of any length", "why_tests_cant": "A statement about all pairs of records and all streams.", "anchors": ["src/vm/vm_exec.c: cnd_execute", "src/vm/vm_io.c"]}
{"id": "C68", "title": "Whatever the decoder accepts is a record", "statement": "If decoding any bytes with the program compiled from a packet description ends with success, then what was reported to the host is a record of the description: every value lies in its type and range, every constant and enum value is a declared one, every array has the announced number of elements, every string is within its limit. So what was accepted can be encoded again, and decoding that packet reports the same.", "quantifier": "all packet descriptions, all byte sequences, all previous contexts", "why_tests_cant": "The claim is over every byte sequence an attacker may send for every description; tests sample packets the encoder produced and a few malformed ones.", "anchors": ["src/vm/vm_exec.c: cnd_execute", "src/vm/vm_io.c"]}
{"id": "C69", "title": "Messages of the language server", "statement": "The server reads from its standard input exactly the bodies a client that frames messages by the protocol sends: whatever other headers stand before and behind Content-Length, whatever follows, and for any number of messages in a stream. What it sends is framed in the same way. Reading is defined for every input.", "quantifier": "all bodies without NUL of 1 to 2^31-1 bytes, all other headers, all streams; for safety, all inputs", "why_tests_cant": "Streams, headers and lengths are unbounded; tests send a few messages in one framing.", "anchors": ["src/cli/cmd_lsp.c: read_json, send_json"]}
{"id": "C70", "title": "File URIs", "statement": "The path of a file URI is the percent-decoded path, for every path and every way to encode it, with the slash before a drive letter dropped; decoding writes within its buffer; and the URI given for a file in an answer leads back to that file.", "quantifier": "all paths without NUL, all encodings of them", "why_tests_cant": "All paths and encodings; tests use a few plain ASCII paths.", "anchors": ["src/cli/cmd_lsp.c: url_decode, file_uri_to_path, handle_definition"]}
{"id": "C71", "title": "Documents of the language server", "statement": "After any sequence of notifications, the text the server has for an open document is the one last sent, and it has none for closed documents. The edit that formatting returns turns the document as it is in the editor into the formatted document.", "quantifier": "all sequences of notifications, all documents", "why_tests_cant": "Histories are unbounded, and the disagreement shows only with unsaved or closed documents.", "anchors": ["src/cli/cmd_lsp.c: doc_update, doc_get, handle_formatting, cmd_lsp"]}
{"id": "C72", "title": "Hover texts stay in their buffer", "statement": "The text shown when hovering is written within the buffer of 4096 bytes, whatever the lengths of its parts.", "quantifier": "all names, documentation comments and detail texts", "why_tests_cant": "The overflow needs documentation longer than any in the tests.", "anchors": ["src/cli/cmd_lsp.c: analyze_source, handle_hover"]}
{"id": "C73", "title": "The symbol under the cursor", "statement": "If the cursor is in an identifier of a source text, this identifier is the symbol looked up for definitions and hovering, and it is known whether it names a decorator. No other token is taken instead, and no position in the identifier is missed.", "quantifier": "all source texts, all identifiers in them, all columns of the identifier", "why_tests_cant": "Every combination of white space, comments, strings and adjoining tokens.", "anchors": ["src/cli/cmd_lsp.c: analyze_source", "src/compiler/cnd_lexer.c: lexer_next"]}
{"id": "C74", "title": "Fields offered for completion", "statement": "The names offered inside an expression are the fields that the bytecode of the structure reads or writes, in order: the server skips every instruction by the length it has for the VM, and misses no field.", "quantifier": "all programs of complete instructions, of any length", "why_tests_cant": "A wrong length of one instruction shows only for what follows it, for some operands.", "anchors": ["src/cli/cmd_lsp.c: skip_instruction, handle_completion", "src/vm/vm_exec.c: cnd_execute"]}
{"id": "C75", "title": "Language of the expression parser", "statement": "The compiler accepts exactly the token sequences that are expressions of the documented grammar (operands, calls, unary and binary operators, parentheses), and emits for each the code of its expression tree; everything else is refused with an error message.", "quantifier": "all token sequences ending with the end-of-file token, all string tables", "why_tests_cant": "Refusal concerns infinitely many wrong inputs, and acceptance with another meaning is invisible to tests of correct inputs.", "anchors": ["src/compiler/cnd_parser.c: parse_precedence, parse_grouping, parse_unary, parse_binary, parse_primary, rules"]}
{"id": "C76", "title": "Imports", "statement": "A program of several files is translated to the image of the program in which every @import is replaced by the declarations of the imported file, each file being taken once (where it is first imported, also with cyclic imports); paths are relative to the importing file; compilation ends for every finite set of files whatever their contents; a file that cannot be opened is refused; a file without imports is translated as by itself. The language server accepts the same programs.", "quantifier": "all file systems (contents and canonical paths), all programs of the C59 syntax split over files, all import graphs; for termination all byte contents", "why_tests_cant": "Import graphs, relative paths and the state carried over from imported files (byte order, pending decorators, names) combine without bound, and cycles endanger termination.", "anchors": ["src/compiler/cnd_parser.c: resolve_path, parse_import, parse_top_level", "src/compiler/cndc.c: cnd_compile_file", "src/cli/cmd_lsp.c: publish_diagnostics"]}
{"id": "C77", "title": "Records through the Go binding", "statement": "A Go program that sets the fields of a record in its callback gets the packet of the record in its slice, and a Go program that reads the fields of that packet in its callback gets exactly the record; Execute returns nil exactly if the VM succeeds and different errors for different failures; every C string made by SetString lives as long as the VM may read it and is freed exactly once; a callback that uses the accessors of its opcode never reaches memory outside what it was given.", "quantifier": "all checked descriptions and records, all slices; for the strings and memory all programs (also malformed), all data, all callbacks as trees of accessor calls", "why_tests_cant": "Lifetime and out-of-range faults across the cgo boundary depend on the interleaving of calls and rarely show; strings and slices near 2^31 bytes are not tested.", "anchors": ["go/concordia.go: Execute, go_io_callback_gateway, Value, SetString, String, FreePending, parseError"]}
{"id": "C78", "title": "What callbacks are given", "statement": "The VM calls its callback without data only with the opcodes of structure begin and end and array end, with a scalar variable only with opcodes whose size is fixed, asks for a string only when encoding and with a string opcode, and passes pointers into the packet only for raw bytes or, when decoding, for a string that is in the packet with its length and all its bytes.", "quantifier": "all programs (also malformed ones), both modes, all packets, all callbacks, runs of any length", "why_tests_cant": "A callback in C casts the pointer by the opcode alone, so one wrong pairing on one path of one malformed program is memory corruption.", "anchors": ["src/vm/vm_exec.c: cnd_execute, every call of io_callback", "include/concordia.h: cnd_io_cb"]}
{"id": "C79", "title": "Wire format of whole packets", "statement": "The packet the encoder makes from a record of a packet description is laid out as the format says: every number at the next byte boundary in the byte order then in force, bit fields at the next bit in that order, strings behind their length or before their NUL, constants, zero padding, all-zero or all-one filling, array counts before their elements, transformed values as their raw number, computed fields as the value of their expression, each checksum the polynomial remainder of all bytes before it. And every byte sequence laid out like that, whoever made it, is decoded without error to exactly that record.", "quantifier": "all packet descriptions (structures, arrays, conditions, switches, transforms, computed fields at any depth), all records, all buffers, all byte sequences, all bytes after the packet", "why_tests_cant": "A round trip cannot show the format: an encoder and a decoder wrong in the same way agree. The format is a statement about every byte of every packet of unboundedly many descriptions.", "anchors": ["src/vm/vm_exec.c: cnd_execute", "src/vm/vm_io.c", "SPEC.md"]}
{"id": "C80", "title": "Structure of the code of every accepted source text", "statement": "Whatever text is given to the compiler, also texts outside the documented grammar, if it produces an image then the code it generated consists of file-level instructions, the name of exactly one packet, and structured code: complete instructions of the lengths the VM gives them, arrays closed by their end marker, conditionals whose two jumps lead to the start and the end of the else part, switches whose case and default places are starts of their own cases or the end and whose cases all jump to the end, with a complete table behind them. Five pieces of generated code deviate: a range on a bool has no bounds, an array without a length has an end but no beginning, and, excluded by a check on the tokens, bit fields of type bool wider than 1, enumerations of 65536 values or more, structs containing a switch.", "quantifier": "all byte strings given as source text that the compiler accepts, any nesting, any error-recovery path that ends without a message", "why_tests_cant": "The compiler is a one-pass emitter with back-patching; that every patched offset is right for every nesting of blocks of every size, on texts nobody wrote a test for, is an induction over the parser.", "anchors": ["src/compiler/cnd_parser.c: parse_top_level, parse_struct, parse_packet, parse_block, parse_statement, parse_if, parse_switch, parse_field, parse_expression", "src/compiler/cnd_utils.c: buf_append_with_prefix", "src/compiler/cndc.c: cnd_compile_file"]}
{"id": "C81", "title": "Errors returned by callbacks", "statement": "If the callback returns an error for a number, a bit field, a count, a context variable, a structure or array boundary or a decoded string, the VM makes no further call and stops with CND_ERR_CALLBACK; it stops with CND_ERR_CALLBACK only if the last call returned an error.", "quantifier": "all programs (also malformed ones), both modes, all packets, all callbacks, runs of any length", "why_tests_cant": "There are some fifty call sites; one that drops the result loses the error only for one field type in one mode.", "anchors": ["src/vm/vm_exec.c: every call of io_callback"]}
{"id": "C82", "title": "Control in compiled programs", "statement": "In the code the compiler generates for an accepted text, control can come only to complete instructions of that code: operand bytes and switch tables are never executed, no byte belongs to two instructions, every jump and every entry of a table leads forward and stays inside the program. So every run of the VM, with any host and any data, stays on these instructions, and without read-to-end arrays it is over after a number of instructions that depends on the length of the program only.", "quantifier": "all accepted source texts that pass the token check of C80, all hosts, both modes, all packets, runs of any length", "why_tests_cant": "Needs every nesting of conditionals, switches and arrays, and every path through each of them.", "anchors": ["src/compiler/cnd_parser.c: parse_if, parse_switch, parse_field", "src/vm/vm_exec.c: OP_JUMP, OP_JUMP_IF_NOT, OP_SWITCH, OP_SWITCH_TABLE, OP_ARR_END, skip_loop_body"]}
{"id": "C83", "title": "Numbers seen through @scale, @poly and @spline", "statement": "Decoding an integer field under @scale, @poly or @spline reports the value of the curve at the number in the packet: r * factor + offset, c0 + c1 r + c2 r^2 + ..., or the point on the straight line between the two neighbouring points of the spline. Encoding the reported value puts the same number into the packet.", "quantifier": "all factors, offsets, coefficients and points, all integer types, all numbers of the type, all hosts, both byte orders", "why_tests_cant": "Inversion is numerical (Newton's method, search for a segment): it depends on every pair of curve and number, and tests compare a few with a tolerance.", "anchors": ["src/vm/vm_exec.c: vm_math_poly_eval, vm_math_poly_solve, vm_math_spline_eval, vm_math_spline_solve", "src/vm/vm_exec.c: HANDLE_PRIMITIVE"]}
{"id": "C84", "title": "Arrays that reach to the end of the packet", "statement": "A packet description that ends in an @eof array carries every record whose elements each take room: encoding the record into a buffer of just its length succeeds and uses up the record, decoding the result succeeds and reports exactly the same calls, any number of elements, none included. The same holds for the image the compiler makes of the source text.", "quantifier": "all descriptions with a read-to-end array at their end (also inside structs), all element descriptions, all numbers of elements, all records, all previous contents of VM and buffer; all source texts of such programs", "why_tests_cant": "The number of elements is not in the packet: what ends the loop is the cursor after each element, so every element description and every packet length is another case.", "anchors": ["src/vm/vm_exec.c: OP_ARR_EOF (1145-1163), OP_ARR_END (1190-1216)", "src/compiler/cnd_parser.c: @eof (783, 828, 1068)"]}
{"id": "C85", "title": "Hex mode changes only byte arrays", "statement": "cnd decode --hex accepts the same packets as cnd decode and shows the same document, except that arrays of bytes appear as strings of two hexadecimal digits per byte, which say exactly which bytes they were.", "quantifier": "all programs, all packets, all name tables, all documents; all sequences of bytes in an array", "why_tests_cant": "Whether an array is taken for one of bytes depends on a byte of the program some distance behind the array instruction, so every layout of the fields that follow is another case.", "anchors": ["src/cli/json_binding.c: append_hex_byte (14-23), handle_array_start (25-94), json_io_callback (275-289, 323-327)", "src/cli/cmd_decode.c: --hex (9-12, 28-32)"]}
{"id": "C86", "title": "Generated bindings agree with the header", "statement": "The Go, Python and TypeScript files gen_bindings prints for a header declare exactly the opcodes, errors, modes, transformations and byte orders C sees in it, in the same order, with the right types, with the same values, also where C counts on by itself, and with names that are different for different constants.", "quantifier": "all headers (any number of lines, any names, values, blanks and comments), all three languages", "why_tests_cant": "CI compares the output for one header with a checked-in copy of itself; whether the values are those of C for other headers, in particular for enumerators without a value, is not looked at.", "anchors": ["src/tools/gen_bindings.c: to_pascal_case (19-84), process_line (106-194), generate_go/python/ts (196-317), main (319-355)"]}
{"id": "C87", "title": "Context of completion", "statement": "Wherever the cursor is in a source text, complete or not, the language server knows the decorator whose parentheses and the struct or packet whose braces the cursor is in, and offers accordingly: the values of an enum behind its name and a dot; in @expr the functions and the fields of the struct; in @count and @len the fields; elsewhere keywords, decorators, structs and enums.", "quantifier": "all source texts and all cursor positions (any white space, comments and tokens before and behind the cursor, any nesting of if, switch and parentheses)", "why_tests_cant": "The language server's tests ask for completion at a few positions of small files; the scan depends on everything before the cursor, and editors ask at every position of every half-written file.", "anchors": ["src/cli/cmd_lsp.c: handle_completion (491-768)", "src/compiler/cnd_utils.c: reg_find, enum_reg_find (374-432)"]}
{"id": "C88", "title": "Diagnostics in the editor", "statement": "The language server reports nothing about a document exactly if the compiler accepts it, and otherwise reports at most 1024 messages, each at the line and column where a token of the document begins (or at its end), in the order of the document; it never reads an entry of the table of messages that was not written.", "quantifier": "all documents without imports (any bytes, any number of errors)", "why_tests_cant": "The tests have a few documents with one error each; the table grows by doubling up to a limit that no test reaches, and the positions depend on the white space, comments, strings and line ends before the error.", "anchors": ["src/compiler/cnd_parser.c: parser_error (189-213)", "src/cli/cmd_lsp.c: publish_diagnostics (881-934)"]}
{"id": "C89", "title": "Formatting does not change the program", "statement": "The formatted text of a program has the same tokens as the program, with the same spelling, so the compiler makes the same image of it or refuses it as well; a project of several files is compiled to the same image when any of its files are formatted.", "quantifier": "all texts (any bytes but NUL, valid programs or not) that do not end inside a string, whose block comments contain no quotation mark and no double slash, and whose documentation comments end with LF, CR LF or the text; all file systems", "why_tests_cant": "The tests of the formatter compare a few outputs. That no pair of adjacent tokens is ever joined or split, that no comment swallows what follows and that strings are kept are statements about all token sequences and all spacings between them.", "anchors": ["src/compiler/cnd_fmt.c: fmt_next (46-121), cnd_format_source (129-215)", "src/compiler/cnd_lexer.c: lexer_next", "src/compiler/cnd_parser.c: parse_import (1552-1615)", "src/compiler/cndc.c: cnd_compile_file (258-321)"]}
{"id": "C90", "title": "Formatting settles and lays out lines by braces", "statement": "From the second time on, formatting a text changes nothing: the third output equals the second. In the output a line ends behind every `;`, `{`, `}` and line comment and in front of every `}`, there is at most one empty line between two tokens, and a line begins with four spaces for every brace that is open there.", "quantifier": "all texts (any bytes but NUL, valid programs or not) that do not end inside a string", "why_tests_cant": "The tests compare single outputs. Settling compares three runs of the formatter on every text, with every combination of pending line ends, spaces and indentation between every two kinds of tokens.", "anchors": ["src/compiler/cnd_fmt.c: fmt_next (46-121), cnd_format_source (129-215)"]}
{"id": "C91", "title": "Damaged packets of fixed layout are refused", "statement": "If a program begins with a description of fixed layout (no strings, no arrays whose length is in the packet, no optional parts; the branches of a choice equally long) followed by a checksum, then every packet that decoding accepts holds at one fixed place the checksum of the bytes before. So of two packets that differ within a window as wide as the checksum in front of it (odd polynomial), or only in the checksum, at most one is accepted; one wrong byte anywhere up to the end of the checksum makes an accepted packet be refused.", "quantifier": "all descriptions of fixed layout (scalars, checked and constant fields, bit fields, padding, structs, fixed arrays, scaled, polynomial and computed fields, conditions, switches), all checksum parameters, all code behind, all packets, all hosts that do not write into the packet nor change the number of elements of a fixed array", "why_tests_cant": "A test damages a few bytes of a few packets. A damaged byte can change conditions, switches and range checks on the way to the checksum; the claim is that none of these ways leads past it.", "anchors": ["src/vm/vm_exec.c: cnd_execute (all field opcodes, OP_CRC_16, OP_CRC_32, OP_JUMP_IF_NOT, OP_SWITCH, OP_SWITCH_TABLE), try_optimize_byte_array (332-355)"]}
{"id": "C92", "title": "Coding takes time linear in the packet", "statement": "Encoding or decoding a packet of n bytes with the program of a description whose array elements each take at least one byte of the packet carries out at most L * (1 + d * n) + 1 instructions, where L is the size of the code and d the nesting depth of arrays, whatever counts the packet and the host give.", "quantifier": "all packet descriptions that pass the check (every array element contains a field, string, constant, checksum or counted array that is not optional), both directions, all hosts, all packets, all old states", "why_tests_cant": "The work is controlled by counts of up to 2^32 in the packet or from the host; a test runs a few counts. The claim bounds every run, including those that fail half-way.", "anchors": ["src/vm/vm_exec.c: cnd_execute, OP_ARR_FIXED, OP_ARR_PRE_U8/U16/U32, OP_ARR_DYNAMIC, OP_ARR_END (1116-1216), OP_IO_BIT_U (980)"]}
{"id": "C93", "title": "A record that does not fit, and a packet that was cut off, are refused", "statement": "For a packet description without bit fields, padding, optional fields and read-to-end arrays: a record is encoded into a buffer exactly if the buffer can hold it, and of a packet and its beginnings exactly the whole packet is decoded, also by `cnd encode` and `cnd decode`; if the description also passes the check of C66 every other case ends in an error. For all programs: a run that succeeds without an instruction taking the end of the buffer for an answer goes the same way with any bytes behind the buffer.", "quantifier": "all such descriptions, all records, all buffers of all lengths, all cut points, all old states; the last part for all programs and all hosts that do not look at the end of the packet", "why_tests_cant": "Every instruction has its own bounds check, before or after a host call and with its own size; a test cuts a few packets at a few places. The claim covers every record and every length, and names the instructions for which it is false.", "anchors": ["src/vm/vm_exec.c: cnd_execute, the bounds checks of all instructions, OP_MARK_OPTIONAL", "src/vm/vm_internal.h: read_bits, write_bits", "src/cli/cmd_encode.c: cmd_encode (1024-byte buffer)", "src/cli/cmd_decode.c: cmd_decode"]}
{"id": "C94", "title": "The commands write what they were asked for, and nothing else", "statement": "Whatever words a command line of `cnd` holds and whatever files there are: a command that ends leaves every file but the one named as its output as it was, and a command that fails leaves all files as they were; a command that reports success has written its output: the compiled image, the formatted text, the packet, the document. In sequence, `cnd compile`, `cnd encode` and `cnd decode` bring a document back, encoding the file written by `cnd decode` gives the same packet again, formatting a source in place does not change the image, a record longer than the buffer of `cnd encode` is refused without a trace, and so is a packet that was cut off by `cnd decode`.", "quantifier": "all command lines, all file systems (including paths that name the same file and files that cannot be written), all sources, all records", "why_tests_cant": "Command lines, aliasing of paths and contents of files are unbounded; the sequences compose compiler, loader, VM and JSON binding.", "anchors": ["src/cli/main.c: main", "src/cli/cmd_compile.c: cmd_compile", "src/cli/cmd_fmt.c: cmd_fmt", "src/cli/cmd_inspect.c: cmd_inspect", "src/cli/cmd_encode.c: cmd_encode", "src/cli/cmd_decode.c: cmd_decode", "src/cli/cli_helpers.c: read_file_bytes, read_file_text, write_file_bytes, write_file_text", "src/compiler/cndc.c: cnd_compile_file (258-333)", "src/compiler/cnd_fmt.c: cnd_format_file (217-253)"]}
{"id": "C95", "title": "Outline, definitions and documentation in the editor", "statement": "For a document without errors, the language server's outline lists exactly the declarations of the document, each with its kind, name and line; going to the definition of a word that names a declaration, of the document or of a file it imports, leads to the file and line of that declaration and a word that names none leads nowhere; hovering shows the name, file and line of the declaration, the documentation comments that precede it, joined line by line, and for an enum its type and values.", "quantifier": "all documents and directories of files with imports of any depth, all cursor positions, all documentation comments", "why_tests_cant": "Documents, import graphs and positions are unbounded; what the parser registers has to be compared with a reading of the token sequence that does not parse.", "anchors": ["src/cli/cmd_lsp.c: analyze_source (215-488), handle_document_symbol (807-866), handle_definition (1003-1072), handle_hover (1074-1118)", "src/compiler/cnd_parser.c: parse_top_level (1617-1680), parse_struct (1417-1430), parse_enum (1318-1332), parse_import (1552-1615)", "src/compiler/cnd_utils.c: reg_add, enum_reg_add"]}
{"id": "C96", "title": "Sessions of the language server", "statement": "In every session, whatever the files do in between, each request is answered exactly once, with its id and in order; each text told and each file saved is reported on once, with the diagnostics of that very text; nothing else is sent; no message brings the server down or ends the session except `exit`; the answer to a request about a position is that for the text of the document told last (C95), whatever was asked or told about other documents before; and this holds from the bytes of standard input to those of standard output.", "quantifier": "all sequences of messages (with any further members, in any order), all files at every moment, all splittings of headers", "why_tests_cant": "Sessions are unbounded sequences over unbounded values; the composition of framing, dispatch, store and analysis cannot be sampled.", "anchors": ["src/cli/cmd_lsp.c: cmd_lsp (1127-1176), read_json (70-97), send_json (60-68), send_response (98-105), handle_initialize (983-1001), handle_didOpen, handle_didChange, handle_didSave (940-981), handle_definition, handle_hover, handle_completion, handle_formatting, handle_document_symbol"]}
{"id": "C97", "title": "The demonstration programs", "statement": "On every file the library's loader accepts, and so on every image the compiler writes, the loaders of the C++ demonstration and of the wasm bridge, which read the header themselves, run the same bytecode as the C demonstration. Compiled from demos/telemetry.cnd as it is, the C and the C++ program encode every record of the application into a packet of ten bytes that holds its four values in order, least byte first, and decode it to the same record; into any buffer of ten bytes or more they write the record and nothing else, from any bytes that begin with a record they take that record, with less room or fewer bytes they report an error; the callbacks touch nothing but the variables they are given.", "quantifier": "all records, buffers, packets, all previous contents of the context, all files the loader accepts, all floating-point environments", "why_tests_cant": "The demonstrations run one record each; there are 2^80 records, all packets and all contents of an uninitialised context.", "anchors": ["demos/demo_c.c", "demos/demo_cpp.cpp", "demos/telemetry.cnd", "demos/wasm/wasm_bridge.c: init_vm (29-39)", "src/vm/vm_exec.c: cnd_program_load (540-546), cnd_program_load_il (548-568)"]}
{"id": "C98", "title": "The compiler's growing memory", "statement": "Every sequence of calls on any number of buffers, string tables and string builders of the compiler, interleaved in any way, runs without reading or writing outside a block, without using or freeing a block already freed and without reading memory that was never written, as long as freed objects are not used again and a buffer is not appended to itself. The ids returned by the string table and the contents of every object are those of byte strings and lists of names that simply grow, so one object never changes another; a block is never more than about twice what was put into it; after every object is freed no block is left.", "quantifier": "all sequences of calls, all numbers of objects, all contents and sizes", "why_tests_cant": "Errors of growth appear at exact sizes and only for some interleavings of several growing objects; there are infinitely many sequences.", "anchors": ["src/compiler/cnd_utils.c: buf_* (235-300), strtab_* (304-335), sb_* (501-554), buf_append_with_prefix (173-231)", "src/compiler/cnd_internal.h: Buffer, StringTable, StringBuilder (115-153)", "src/compiler/cnd_parser.c: struct inlining (1142-1172, 1515)"]}
{"id": "C99", "title": "The compiler's registries in memory", "statement": "Every sequence of declarations of structs and enums, of enum values, of bytes emitted into the packet or into the struct being declared, of patches, of structs copied into others, and of look-ups by name, runs without reading or writing outside a block, without using or freeing freed memory and without reading memory never written, provided code goes to the packet or the struct declared last and a struct is not copied into itself. Afterwards the memory, read back through the registries' pointers, is exactly the lists of declarations in order, with their names, lines, files, comments, code and values; look-ups return the first declaration of the name, and an enum value is reported as used before iff it is. Freeing the registries frees every name, comment, file name, code buffer, value array and the arrays themselves, each once: no block is left. The pointer to a definition is not good after another definition is added to a full registry; parsing a body adds none.", "quantifier": "all sequences of calls, all numbers of declarations and values, all contents and sizes", "why_tests_cant": "Growth, interleaving and deep ownership: an array of records that moves while records own blocks of their own, in infinitely many orders; leaks and stale pointers do not show in the output.", "anchors": ["src/compiler/cnd_utils.c: strdup_safe, strreg/enumreg add, find and free (336-432)", "src/compiler/cnd_parser.c: parse_enum, parse_struct (1319-1482), struct inlining (1142-1172)", "src/compiler/cnd_internal.h: StructDef, EnumDef, registries (163-205)", "src/compiler/cndc.c: set-up and clean-up (278-282, 337-363)"]}
{"id": "C100", "title": "The compiler has no undefined behaviour", "statement": "On every source text the compiler ends with an image or with messages, never with undefined behaviour: no signed overflow in literals or enum values, no read outside the table of operators, no copying past the end of the array for the names of nested fields. (False of the code in four ways, each with a text; true of all texts that pass a check on their tokens.)", "quantifier": "all source texts, and all sets of files importing each other, that pass the check, all fuel, all behaviours of the floating-point conversion", "why_tests_cant": "Which names are copied depends on how deeply structs are nested and on bytes of code read again as instructions; a run that meets undefined behaviour need not show it; texts are unbounded.", "anchors": ["src/compiler/cnd_parser.c: all of the parser (23-1685)", "src/compiler/cnd_utils.c: buf_append_with_prefix (169-231), parse_number_i64 (460-476)", "src/compiler/cnd_parser.c: parse_import (1552-1615)"]}
{"id": "C101", "title": "The fuzzer counts what the VM answers", "statement": "The fuzzer (mode data) feeds the VM the packets that the sequence of random numbers spells out, none longer than its buffer; its counters say of each result how many of these packets end with it when run from a fresh context, and its report accounts for every iteration. Its generator never sticks: only the state 0 is followed by 0, and different states have different successors. (False of the report: arithmetic errors are counted but not listed. With the seed 0 every packet is empty; a program that loops hangs the fuzzer.)", "quantifier": "all programs, seeds, numbers of iterations and previous contents of the context", "why_tests_cant": "The context is reused from packet to packet, so a leak of state would show only for some sequence of packets; seeds and iterations are unbounded.", "anchors": ["src/tools/vm_fuzzer.c: xorshift32, fill_random, fuzz_cb, fuzz_data (8-80)"]}
{"id": "C102", "title": "hexview shows the file", "statement": "The dump lists the bytes of the file in order, sixteen to a line, each as two upper-case digits and a blank, every line ended, and reading the digits back gives the file. (False of files of 2^31 bytes and more, where the counter overflows.)", "quantifier": "all files", "why_tests_cant": "Files are unbounded; the counter overflows only after two gigabytes.", "anchors": ["src/tools/hexview.c: main (5-28)"]}
{"id": "C103", "title": "The helpers for build scripts do what their arguments say", "statement": "cnd_compile(bin, input, output) and cnd_encode(bin, schema, json, output) answer yes only if the image or packet is in the file named as output; cnd_decode answers yes if the packet can be decoded. (False: the tool takes `-o` as the name of the output, so the named file is never written though the answer is yes; cnd_decode gives the tool too few words and always fails.)", "quantifier": "all disks, programs, documents, file names", "why_tests_cant": "The repository has no test of the helpers; that the named file is untouched for every program and disk is a frame condition over all files.", "anchors": ["include/nob_concordia.h: cnd_compile (103-109), cnd_encode (113-119), cnd_decode (122-128)", "src/cli/cmd_compile.c", "src/cli/cmd_encode.c", "src/cli/cmd_decode.c"]}
{"id": "C104", "title": "The callback of the kitchen sink example stores inside its arrays", "statement": "Whatever program and packet are decoded, sink_cb stores only inside the arrays of its record and reads only inside the packet, and a decoded string is the string of the packet. (False: `dynamic_bytes` and `dynamic_strings` are bounded by the counts in the packet, not by their sizes; `reason`, whose length is in front of it, is copied up to a zero. Proved: no other array is overrun, and how far these two can be.)", "quantifier": "all programs, packets, runs", "why_tests_cant": "The example decodes only the packet it has just encoded; the overruns need hostile packets, and the bound on all other arrays holds for every program and packet.", "anchors": ["examples/kitchen_sink/kitchen_sink.c: sink_cb (96-349)", "src/vm/vm_exec.c: try_optimize_byte_array (330-356), HANDLE_STRING_PRE (388-)"]}
