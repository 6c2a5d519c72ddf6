{
 "claims": [
  {
   "property": "C01",
   "status": "proved",
   "theorems": [
    "Cnd.C01_scalar_roundtrip"
   ],
   "note": "every scalar opcode, both byte orders, any position, any host; no transform pending (transforms are C26)"
  },
  {
   "property": "C02",
   "status": "proved",
   "theorems": [
    "Cnd.C02_wire_layout"
   ],
   "note": "byte i of the value at p+i / p+n-1-i, nothing else changes"
  },
  {
   "property": "C03",
   "status": "proved",
   "theorems": [
    "Cnd.C03_step_frame",
    "Cnd.C03_run_frame"
   ],
   "note": "all opcodes, all programs, hosts that do not write through packet pointers"
  },
  {
   "property": "C04",
   "status": "partial",
   "theorems": [
    "Cnd.C04_false",
    "Cnd.C04_decode_readonly_partial"
   ],
   "note": "false of the code: OP_CONST_WRITE writes in decode mode (witness); proved for runs that never execute it"
  },
  {
   "property": "C05",
   "status": "partial",
   "theorems": [
    "Cnd.C05_false_enum",
    "Cnd.C05_false_emit",
    "Cnd.C05_encode_in_bounds_partial"
   ],
   "note": "false of the code: enum check under-run and mid-byte EMIT (witnesses); proved for runs without the hazard opcodes"
  },
  {
   "property": "C06",
   "status": "partial",
   "theorems": [
    "Cnd.C06_false_pad_crc",
    "Cnd.C06_false_pad_str",
    "Cnd.C06_false_optional_enum",
    "Cnd.C06_decode_in_bounds_partial",
    "Cnd.C06_no_hazard_opcodes"
   ],
   "note": "false of the code (three witnesses); proved for runs in which the hazard opcodes are not executed past the end"
  },
  {
   "property": "C07",
   "status": "proved",
   "theorems": [
    "Cnd.C07_stacks_bounded",
    "Cnd.C07_push_full",
    "Cnd.C07_loop_full"
   ],
   "note": "inductive invariant over all runs"
  },
  {
   "property": "C08",
   "status": "proved",
   "theorems": [
    "Cnd.C08_forward"
   ],
   "note": "all opcodes"
  },
  {
   "property": "C09",
   "status": "proved",
   "theorems": [
    "Cnd.C09_bits_roundtrip"
   ],
   "note": ""
  },
  {
   "property": "C10",
   "status": "proved",
   "theorems": [
    "Cnd.C10_bits_frame",
    "Cnd.C10_bits_layout"
   ],
   "note": ""
  },
  {
   "property": "C100",
   "status": "partial",
   "theorems": [
    "Cnd.C100_no_ub_partial",
    "Cnd.C100_simple_partial",
    "Cnd.C100_files_partial",
    "Cnd.C100_editor_partial",
    "Cnd.C100_false",
    "Cnd.C100_short",
    "Cnd.C100_digits"
   ],
   "note": "C100_no_ub_partial: texts that pass the check tidy are compiled without undefined behaviour, for all lengths below 2^56, all fuel and all floating-point conversions. C100_simple_partial: the same for a class described by the token grammar of C49 alone. C100_files_partial, C100_editor_partial: the same for programs of several files and for the parser of the language server. Missing: the property is false in general (C100_false, four texts); the check is sufficient but not necessary (it excludes switch in a struct, documentation comments inside an expression, pow in texts with such comments, bool bit fields wider than one bit)."
  },
  {
   "property": "C101",
   "status": "partial",
   "theorems": [
    "Cnd.C101_generator",
    "Cnd.C101_packets",
    "Cnd.C101_counters",
    "Cnd.C101_report_partial",
    "Cnd.C101_ends_partial",
    "Cnd.C101_handled",
    "Cnd.C101_source_partial",
    "Cnd.C101_false_report",
    "Cnd.C101_false_hang"
   ],
   "note": "Counters, packets and generator proved for all programs, seeds and iterations; the report is false (arithmetic errors are left out), exact relation proved; no hanging only for programs without backward jumps and read-to-end arrays, and for source programs that pass the check of C66 (also no undefined behaviour)."
  },
  {
   "property": "C102",
   "status": "partial",
   "theorems": [
    "Cnd.C102_dump_partial",
    "Cnd.C102_lines",
    "Cnd.C102_false_long"
   ],
   "note": "Proved for all files of less than 2^31 bytes; for all longer files the int counter overflows (proved)."
  },
  {
   "property": "C103",
   "status": "partial",
   "theorems": [
    "Cnd.C103_compile_partial",
    "Cnd.C103_encode_partial",
    "Cnd.C103_false_untouched",
    "Cnd.C103_false_compile",
    "Cnd.C103_false_encode",
    "Cnd.C103_false_decode"
   ],
   "note": "False of the code: the tool takes -o as the name of the output file, and cnd_decode always fails."
  },
  {
   "property": "C104",
   "status": "partial",
   "theorems": [
    "Cnd.C104_arrays_partial",
    "Cnd.C104_safe",
    "Cnd.C104_false_strings",
    "Cnd.C104_false_bytes",
    "Cnd.C104_false_reason"
   ],
   "note": "False of the code: two arrays are bounded by counts from the packet, and the string reason is copied past its end; all other arrays proved safe for every program and packet."
  },
  {
   "property": "C11",
   "status": "proved",
   "theorems": [
    "Cnd.C11_write_fast_path",
    "Cnd.C11_read_fast_path"
   ],
   "note": ""
  },
  {
   "property": "C12",
   "status": "proved",
   "theorems": [
    "Cnd.C12_sign_extend",
    "Cnd.C12_signed_roundtrip"
   ],
   "note": ""
  },
  {
   "property": "C13",
   "status": "partial",
   "theorems": [
    "Cnd.C13_false_encode",
    "Cnd.C13_false_decode",
    "Cnd.C13_truncation_partial"
   ],
   "note": "false of the code: both directions stop silently at the buffer end (witnesses); what is truncated is characterised"
  },
  {
   "property": "C14",
   "status": "proved",
   "theorems": [
    "Cnd.C14_str_encode",
    "Cnd.C14_str_decode",
    "Cnd.C14_str_roundtrip"
   ],
   "note": ""
  },
  {
   "property": "C15",
   "status": "proved",
   "theorems": [
    "Cnd.C15_str_encode",
    "Cnd.C15_str_decode",
    "Cnd.C15_str_roundtrip"
   ],
   "note": ""
  },
  {
   "property": "C16",
   "status": "proved",
   "theorems": [
    "Cnd.C16_array",
    "Cnd.reps_scalar"
   ],
   "note": "All scalar types including float and bool, three kinds of array, both byte orders, n >= 1. For host-counted arrays the count comes from a u32 field encoded first."
  },
  {
   "property": "C17",
   "status": "partial",
   "theorems": [
    "Cnd.C17_bulk_encode_partial",
    "Cnd.C17_bulk_decode_partial",
    "Cnd.C17_false_transform"
   ],
   "note": "Equal packets, cursors and next instruction for all contents and lengths below 2^32-1 when no transform is pending. Disagreement: with a pending transform the loop transforms the first element while the bulk path writes it untransformed and leaves the transform for the next field (C17_false_transform, concrete runs)."
  },
  {
   "property": "C18",
   "status": "partial",
   "theorems": [
    "Cnd.C18_empty_fixed_partial",
    "Cnd.C18_empty_prefixed_partial",
    "Cnd.C18_empty_dynamic_partial",
    "Cnd.nested_code",
    "Cnd.C18_false_key"
   ],
   "note": "Holds for all bodies none of whose operand bytes equals an array opcode; all array kinds, both modes. Disagreement: keys or constants containing such bytes derail the scan (C18_false_key, concrete runs: a good packet refused, and a field lost with result OK)."
  },
  {
   "property": "C19",
   "status": "proved",
   "theorems": [
    "Cnd.C19_const_encode",
    "Cnd.C19_const_decode",
    "Cnd.C19_const_no_room"
   ],
   "note": ""
  },
  {
   "property": "C20",
   "status": "proved",
   "theorems": [
    "Cnd.C20_range_check"
   ],
   "note": "integer types; float ranges use the abstract comparison"
  },
  {
   "property": "C21",
   "status": "proved",
   "theorems": [
    "Cnd.C21_enum_check"
   ],
   "note": ""
  },
  {
   "property": "C22",
   "status": "proved",
   "theorems": [
    "Cnd.C22_bool_decode",
    "Cnd.C22_bool_encode"
   ],
   "note": ""
  },
  {
   "property": "C23",
   "status": "proved",
   "theorems": [
    "Cnd.C23_crc_encode",
    "Cnd.C23_crc_decode",
    "Cnd.C23_crc_roundtrip"
   ],
   "note": "instruction level, all parameters, both widths, both byte orders"
  },
  {
   "property": "C24",
   "status": "proved",
   "theorems": [
    "Cnd.C24_one_byte",
    "Cnd.C24_corruption_rejected"
   ],
   "note": "message level and decoder level"
  },
  {
   "property": "C25",
   "status": "partial",
   "theorems": [
    "Cnd.C25_false",
    "Cnd.C25_table_partial"
   ],
   "note": "false as stated (init is not reflected on the table path); equality proved to hold exactly for initial values that read the same in both directions"
  },
  {
   "property": "C26",
   "status": "partial",
   "theorems": [
    "Cnd.C26_int_round_trip",
    "Cnd.C26_consumed_partial",
    "Cnd.C26_false_leak"
   ],
   "note": "Round trip proved for all types, constants and values under add, sub, mul and also div. The claim that a transform never leaks is false of the code (missing optional field, bool, array elements after the first): C26_false_leak. C26_consumed_partial: integer and float fields that are present do consume the transform."
  },
  {
   "property": "C27",
   "status": "partial",
   "theorems": [
    "Cnd.C27_false",
    "Cnd.C27_encode_iff_partial",
    "Cnd.C27_decode_iff_partial",
    "Cnd.C27_decode_small_partial"
   ],
   "note": "False of the code (C27_false: three concrete overflows). Proved instead: exactly when a transformed field is undefined behaviour, and that small wire types with constants of magnitude at most 2^30 are safe when decoding."
  },
  {
   "property": "C28",
   "status": "partial",
   "theorems": [
    "Cnd.C28_mark",
    "Cnd.C28_missing",
    "Cnd.C28_mandatory",
    "Cnd.C28_present",
    "Cnd.C28_false_mark_leaks",
    "Cnd.C28_mark_scoped_partial"
   ],
   "note": "missing/present/mandatory behaviour proved for all scalars in both modes; 'the mark affects only the next field' is false of the code for fields that ignore it (witness), proved for scalars and strings"
  },
  {
   "property": "C29",
   "status": "proved",
   "theorems": [
    "Cnd.C29_switch",
    "Cnd.C29_switch_callback"
   ],
   "note": ""
  },
  {
   "property": "C30",
   "status": "proved",
   "theorems": [
    "Cnd.C30_jump_table",
    "Cnd.C30_table_eq_switch",
    "Cnd.C30_compiled_table"
   ],
   "note": "also for the table the compiler fills in"
  },
  {
   "property": "C31",
   "status": "partial",
   "theorems": [
    "Cnd.C31_false_switch_table",
    "Cnd.C31_jump_target",
    "Cnd.C31_code_in_bounds_partial",
    "Cnd.C31_truncated_table",
    "Cnd.C31_truncated_switch"
   ],
   "note": "false of the code: SWITCH_TABLE index wraps modulo 2^64 (witness); proved for all other instructions; a jump table or switch whose header or cases are cut off is refused"
  },
  {
   "property": "C32",
   "status": "partial",
   "theorems": [
    "Cnd.C32_ends_partial",
    "Cnd.C32_program_partial",
    "Cnd.C32_false"
   ],
   "note": "bound on the number of instructions that depends only on the bytecode length, for all packets, modes and hosts, when no executed jump goes backwards and no loop is opened with the count 0xFFFFFFFF; C32 as stated is false because that count is taken for a read-to-end array (five-byte packet that never finishes)"
  },
  {
   "property": "C33",
   "status": "proved",
   "theorems": [
    "Cnd.C33_history"
   ],
   "note": "for every program, host, buffer and number of instructions: the observable result does not depend on what the context held before cnd_init"
  },
  {
   "property": "C34",
   "status": "partial",
   "theorems": [
    "Cnd.C34_packet_partial",
    "Cnd.C34_false"
   ],
   "note": "two encode runs into any two buffers of the same length: same result, position, host state, bytes and bits, for hosts that decline bulk transfers and runs that leave no byte partly written; C34 as stated is false because undefined bits of a partly written byte keep the buffer's old contents"
  },
  {
   "property": "C35",
   "status": "partial",
   "theorems": [
    "Cnd.C35_round_trip_partial",
    "Cnd.C35_false",
    "Cnd.C45_image"
   ],
   "note": "Round trip of bytecode, ids and names for up to 65535 distinct names and images below 4 GiB; false for 65536 names (count wraps to 0)."
  },
  {
   "property": "C36",
   "status": "proved",
   "theorems": [
    "Cnd.C36_accepts",
    "Cnd.C36_refuses",
    "Cnd.C36_suffix"
   ],
   "note": "Exact acceptance condition, exact error reasons, bytecode is a suffix."
  },
  {
   "property": "C37",
   "status": "partial",
   "theorems": [
    "Cnd.C37_false",
    "Cnd.C37_name_partial",
    "Cnd.C37_lookup_partial",
    "Cnd.C37_compiled"
   ],
   "note": "False as stated (loader does not check the strings are there); exact condition for name lookup; safe when as many NULs follow the table start as names are announced, which compiler-written images satisfy."
  },
  {
   "property": "C38",
   "status": "proved",
   "theorems": [
    "Cnd.C38_verifier_total",
    "Cnd.C38_limit"
   ],
   "note": "For every program shorter than 2^32-20 bytes. C38_limit shows the length bound is needed: the uint32 instruction pointer wraps and the walk never ends."
  },
  {
   "property": "C39",
   "status": "partial",
   "theorems": [
    "Cnd.C39_partial",
    "Cnd.C39_packets_partial",
    "Cnd.C39_targets",
    "Cnd.C39_false",
    "Cnd.C39_false_length",
    "Cnd.C39_false_operands",
    "Cnd.C39_false_table"
   ],
   "note": "False as stated: jumps into the middle of instructions, wrong instruction lengths, missing operands and a full-range jump table are accepted. Proved when opcodes have agreeing lengths and jump targets / array ends are boundaries, and for packets of plain fields. C39_targets: every jump, case and default of an accepted program goes to an address inside it."
  },
  {
   "property": "C40",
   "status": "partial",
   "theorems": [
    "Cnd.C40_partial",
    "Cnd.C40_false",
    "Cnd.C40_false_enum"
   ],
   "note": "False as stated: every packet with eight field names is rejected (the packet name id is read as opcode), and so is every enumeration. Proved for packets of scalars, strings, alignment, byte order, arrays."
  },
  {
   "property": "C41",
   "status": "partial",
   "theorems": [
    "Cnd.C41_eval_partial",
    "Cnd.C41_too_deep",
    "Cnd.C41_false_neg",
    "Cnd.C41_false_shift"
   ],
   "note": "All expression trees and field values; false where the C code has undefined behaviour (shift by 64 or more, negation of -2^63)."
  },
  {
   "property": "C42",
   "status": "partial",
   "theorems": [
    "Cnd.C42_precedence_partial",
    "Cnd.C42_unique",
    "Cnd.C42_value_partial",
    "Cnd.C42_paren_false",
    "Cnd.C42_unary_false",
    "Cnd.C42_hex_false",
    "Cnd.C42_minus_false",
    "Cnd.C42_doc_false",
    "Cnd.C42_false_example"
   ],
   "note": "For all trees of literals, fields (also with members), self, function calls (one argument, pow, conversions) and binary operators: emitted code = postfix code; the tree is unique for every sequence of operands and operators; integer trees evaluate to their value on the VM. Excluded because the code differs: hexadecimal literals containing the digit e (treated as floats), the literal -2^63; parentheses and unary operators are mis-parsed (C75 says how). The repository's own example of conditionals is refused because of its parentheses (C42_false_example)."
  },
  {
   "property": "C43",
   "status": "partial",
   "theorems": [
    "Cnd.C43_right_partial",
    "Cnd.C43_left_int_actual",
    "Cnd.C43_false"
   ],
   "note": "Holds when the integer operand is on the right; with the integer on the left OP_SWAP is a no-op and the wrong operand is converted."
  },
  {
   "property": "C44",
   "status": "partial",
   "theorems": [
    "Cnd.C44_computed_partial",
    "Cnd.C44_false"
   ],
   "note": "Holds exactly for values that fit the field width as unsigned numbers; both directions proved."
  },
  {
   "property": "C45",
   "status": "proved",
   "theorems": [
    "Cnd.C45_intern",
    "Cnd.C45_ids",
    "Cnd.C45_image",
    "Cnd.C45_false"
   ],
   "note": "Any sequence of interned names, up to 65536 distinct ones; beyond that ids collide (C45_false)."
  },
  {
   "property": "C46",
   "status": "partial",
   "theorems": [
    "Cnd.C46_plain",
    "Cnd.C46_signed_partial",
    "Cnd.C46_u32",
    "Cnd.C46_false",
    "Cnd.C46_false_u32",
    "Cnd.Numeral.exists_dec"
   ],
   "note": "All decimal/hex literals, all values below 2^64, negatives down to -(2^63-1); -2^63 overflows (C46_false)."
  },
  {
   "property": "C47",
   "status": "partial",
   "theorems": [
    "Cnd.C47_length",
    "Cnd.C47_inline_partial",
    "Cnd.C47_false_table",
    "Cnd.C47_false_names",
    "Cnd.C47_false_ref",
    "Cnd.C47_false_version"
   ],
   "note": "Length preservation for all bodies; prefixing of all keys for bodies of complete instructions of the kinds the inliner knows; witnesses for jump tables, hidden names, count references and META_VERSION."
  },
  {
   "property": "C48",
   "status": "partial",
   "theorems": [
    "Cnd.C48_optimize_partial",
    "Cnd.C48_all_used",
    "Cnd.C48_false_constant",
    "Cnd.C48_false_name",
    "Cnd.C48_false_table",
    "Cnd.C48_false_poly",
    "Cnd.C48_false_emit"
   ],
   "note": "Names kept and nothing else changed for all programs of complete instructions whose opcodes the optimiser steps over as the VM does; identity on all byte strings when every name is in use; witnesses for constants, lost names, case labels coefficients and loads behind a computed field."
  },
  {
   "property": "C49",
   "status": "proved",
   "theorems": [
    "Cnd.C49_lexer",
    "Cnd.C49_unique",
    "Cnd.C49_iff",
    "Cnd.C49_call",
    "Cnd.C49_line_false"
   ],
   "note": "Lexing is total, gives exactly the tokens of an independent, unambiguous token grammar and reads nothing behind the terminating NUL; the line numbers behind a string containing newlines are too small (C49_line_false)."
  },
  {
   "property": "C50",
   "status": "proved",
   "theorems": [
    "Cnd.C50_formatter",
    "Cnd.C50_idempotent_false",
    "Cnd.C50_strings_false"
   ],
   "note": "For every source text the formatter's output has the same characters outside white space, in the same order. It is not idempotent, and a quotation mark in a block comment lets it change a later string literal (both shown with witnesses)."
  },
  {
   "property": "C51",
   "status": "proved",
   "theorems": [
    "Cnd.C51_emit",
    "Cnd.C51_if_else",
    "Cnd.C51_statement"
   ],
   "note": "Emission with back-patching and execution, for blocks below 2 GiB and integer conditions."
  },
  {
   "property": "C52",
   "status": "proved",
   "theorems": [
    "Cnd.C52_packet",
    "Cnd.encodes",
    "Cnd.rec_fwd"
   ],
   "note": "By structural induction over descriptions (Fld) built from scalars, ranged and enumerated scalars, constants, NUL-terminated and prefixed strings, bit fields, padding, structs, fixed, prefixed and host-counted arrays, byte-order switches and checksums; the host gives events from a list, the decoder's host logs events. Side conditions on records are stated in Rec (e.g. byte order switched only on a byte boundary, empty arrays need a properly nested body, see C18). The decoder context's table references, which cnd_init leaves unset, are taken equal to the encoder's."
  },
  {
   "property": "C53",
   "status": "proved",
   "theorems": [
    "Cnd.C53_error_reasons",
    "Cnd.C53_underflow",
    "Cnd.C53_overflow"
   ],
   "note": "all opcodes, all runs"
  },
  {
   "property": "C54",
   "status": "partial",
   "theorems": [
    "Cnd.C54_boundaries_partial",
    "Cnd.C54_false_eof",
    "Cnd.C54_false_table",
    "Cnd.C54_past_end"
   ],
   "note": "Boundaries agree with the VM for all programs without the opcodes whose sizes differ; witnesses for ARR_EOF, SWITCH_TABLE and the pointer past the end."
  },
  {
   "property": "C55",
   "status": "proved",
   "theorems": [
    "Cnd.C55_burst",
    "Cnd.C24_corruption_rejected"
   ],
   "note": ""
  },
  {
   "property": "C56",
   "status": "partial",
   "theorems": [
    "Cnd.C56_textbook",
    "Cnd.C56_textbook_partial",
    "Cnd.C56_encode_partial"
   ],
   "note": "C56_textbook: the textbook checksum for all parameters, the initial value being the one the code starts from (CrcPar.start); that this is the declared one fails for the table path with a non-palindromic initial value (C25_false), which C56_textbook_partial excludes"
  },
  {
   "property": "C57",
   "status": "partial",
   "theorems": [
    "Cnd.C57_false",
    "Cnd.C57_step_keeps_partial",
    "Cnd.C57_bytes_final",
    "Cnd.C57_bits_final_partial"
   ],
   "note": "false for EMIT in the middle of a byte (C57_false); proved for everything else; whole bytes unconditionally"
  },
  {
   "property": "C58",
   "status": "proved",
   "theorems": [
    "Cnd.C58_ends",
    "Cnd.C58_one"
   ],
   "note": "Every byte sequence; outcome is never stuck above a linear recursion bound, and independent of the bound. @import and the C stack are outside the model."
  },
  {
   "property": "C59",
   "status": "proved",
   "theorems": [
    "Cnd.C59_tokens",
    "Cnd.C59_source",
    "Cnd.C59_written"
   ],
   "note": "Compositional specification (Source.lean) against the modelled lexer and parser. The specification leaves out parentheses and unary operators in expressions (see C42), imports, literals -2^63 and what the compiler accepts without a sensible meaning (see C60, DESIGN.md). The image is that of optimizeStrings (C48)."
  },
  {
   "property": "C60",
   "status": "partial",
   "theorems": [
    "Cnd.C60_range_partial",
    "Cnd.C60_false_range",
    "Cnd.C60_false_enum",
    "Cnd.C60_false_bits",
    "Cnd.C60_false_until",
    "Cnd.C60_false_max",
    "Cnd.C60_false_width",
    "Cnd.C60_false_crc",
    "Cnd.C60_false_be",
    "Cnd.C60_false_le",
    "Cnd.C60_false_reset",
    "Cnd.C60_false_array",
    "Cnd.C60_false_bool"
   ],
   "note": "False: twelve witnesses where information is cut or dropped. Proved for ranges of integer fields whose bounds fit the type (literal -2^63 left out)."
  },
  {
   "property": "C61",
   "status": "proved",
   "theorems": [
    "Cnd.C61_packet",
    "Cnd.C61_float_poly_false"
   ],
   "note": "All descriptions with if/else, switch, integer transforms, scalings (of integers and floats), polynomials, splines, optional marks and computed integer fields at any depth. Only values that survive a transform count as fitting; a computed field must fit its width (C44). Integer transforms, polynomials and splines of float fields are not described; C61_float_poly_false shows that the VM does not apply polynomials to them."
  },
  {
   "property": "C62",
   "status": "partial",
   "theorems": [
    "Cnd.C62_program_partial",
    "Cnd.C62_all_met_partial",
    "Cnd.C62_false_constant",
    "Cnd.optSch_code",
    "Cnd.optSch_names",
    "Cnd.C62_false_key",
    "Cnd.C62_false_example"
   ],
   "note": "False in general (witness: @expr(69632) compiled as 4096, and an expression behind a computed field reading a wrong field, by dead-string elimination). Proved for programs whose packet progSch describes (no read-to-end arrays, function calls in expressions, float fields with other transforms than @scale) and on whose code dead-string elimination stays in step (optSch) or finds every name in use."
  },
  {
   "property": "C63",
   "status": "partial",
   "theorems": [
    "Cnd.C63_record_partial",
    "Cnd.C63_document",
    "Cnd.C63_packet_partial",
    "Cnd.C63_constants_partial",
    "Cnd.C63_decode",
    "Cnd.C63_encode",
    "Cnd.C63_numbers",
    "Cnd.C63_saturates",
    "Cnd.C63_u32_witness",
    "Cnd.C63_u64_witness",
    "Cnd.C63_bytes_decode_witness",
    "Cnd.C63_bytes_encode_witness",
    "Cnd.C63_empty_witness",
    "Cnd.C63_prefix_witness",
    "Cnd.C63_string_witness",
    "Cnd.C63_nesting_witness",
    "Cnd.C63_case_witness",
    "Cnd.C63_member_witness",
    "Cnd.C63_constant_witness"
   ],
   "note": "False in general: byte arrays, empty arrays, uint32 from 2^31, 64-bit numbers from 2^53, clashes of names without case, constants in arrays (witnesses). Proved: encode then decode gives the same document for every description that passes Sch.docOk and every record with nonempty arrays and numbers that fit (the document exists, C63_document); any program for the single directions."
  },
  {
   "property": "C64",
   "status": "partial",
   "theorems": [
    "Cnd.C64_written",
    "Cnd.C64_agree",
    "Cnd.C64_defined_partial",
    "Cnd.C64_false",
    "Cnd.C64_go"
   ],
   "note": "False for files whose string table is cut short (read past the end) and for other versions; exact condition proved; compiler-written images and agreement of the loaders proved for all files both accept."
  },
  {
   "property": "C65",
   "status": "partial",
   "theorems": [
    "Cnd.C65_tools_partial"
   ],
   "note": "Composition of C62, C64 and C63 with their limits; the encode buffer is the tool's 1024 zero bytes."
  },
  {
   "property": "C66",
   "status": "partial",
   "theorems": [
    "Cnd.C66_every_input_partial",
    "Cnd.C66_source_partial",
    "Cnd.C66_false_endless",
    "Cnd.C66_false_optional_enum",
    "Cnd.C66_false_add",
    "Cnd.C66_false_shift",
    "Cnd.C66_false_pad",
    "Cnd.C66_false_short"
   ],
   "note": "Proved for every description that passes the check Sch.tame (both modes, all hosts, packets and contexts), and from source text; missing are the descriptions that fail it, among which six compiled one-line programs are shown to loop for ever or meet undefined behaviour."
  },
  {
   "property": "C67",
   "status": "proved",
   "theorems": [
    "Cnd.C67_prefix_free",
    "Cnd.C67_stream"
   ],
   "note": "For the packet descriptions of C61 (Sch.lean)."
  },
  {
   "property": "C68",
   "status": "partial",
   "theorems": [
    "Cnd.C68_accepted_partial",
    "Cnd.C68_resend_partial",
    "Cnd.C68_false_string",
    "Cnd.C68_false_count",
    "Cnd.C68_false_optional"
   ],
   "note": "For descriptions passing the check Sch.exact and reports without counts of 0xFFFFFFFF, NUL in strings, or over-long strings; witnesses show that these exceptions (and optional ranges) are real."
  },
  {
   "property": "C69",
   "status": "partial",
   "theorems": [
    "Cnd.C69_message",
    "Cnd.C69_stream",
    "Cnd.C69_sent",
    "Cnd.C69_safe_partial",
    "Cnd.C69_false_length"
   ],
   "note": "Reading and sending are proved for all framed streams; safety is false for Content-Length: -1 and proved for inputs whose lengths are ints other than -1."
  },
  {
   "property": "C70",
   "status": "partial",
   "theorems": [
    "Cnd.C70_decode",
    "Cnd.C70_drive",
    "Cnd.C70_bounds",
    "Cnd.C70_definition_partial",
    "Cnd.C70_definition_drive_partial",
    "Cnd.C70_false_percent",
    "Cnd.C70_false_ctype"
   ],
   "note": "Decoding is proved for all paths and encodings for which isalpha is defined; the answer's URI is not percent-encoded, so the way back is proved for paths without percent signs and backslashes and false otherwise."
  },
  {
   "property": "C71",
   "status": "partial",
   "theorems": [
    "Cnd.C71_store_partial",
    "Cnd.C71_false_close",
    "Cnd.C71_format_partial",
    "Cnd.C71_format_answers",
    "Cnd.C71_false_unsaved",
    "Cnd.C71_false_long"
   ],
   "note": "Proved until the document is closed, and for saved documents with fewer than 999999 line ends; false otherwise."
  },
  {
   "property": "C72",
   "status": "partial",
   "theorems": [
    "Cnd.C72_hover",
    "Cnd.C72_false_long"
   ],
   "note": "False; C72_hover gives the exact condition."
  },
  {
   "property": "C73",
   "status": "partial",
   "theorems": [
    "Cnd.C73_symbol_partial",
    "Cnd.C73_false_string",
    "Cnd.C73_false_start"
   ],
   "note": "Proved for sources without newlines in strings before the cursor, except at the beginning of an identifier that directly follows another token; false in both cases."
  },
  {
   "property": "C74",
   "status": "partial",
   "theorems": [
    "Cnd.C74_offered_partial",
    "Cnd.C74_false_eof",
    "Cnd.C74_false_kinds",
    "Cnd.C74_false_once"
   ],
   "note": "Proved for programs without ARR_EOF, ARR_DYNAMIC, SWITCH_TABLE, EMIT, RAW_BYTES and CONST_CHECK; false with them."
  },
  {
   "property": "C75",
   "status": "partial",
   "theorems": [
    "Cnd.C75_language",
    "Cnd.C75_accepts_partial",
    "Cnd.C75_refuses",
    "Cnd.C75_false_paren",
    "Cnd.C75_false_open"
   ],
   "note": "Exact: a token sequence is accepted just if it begins with a tree of the given shapes followed by a token that does not continue it, and the code is the tree's; everything else is refused. The shapes are those of the documented grammar except that behind an opening parenthesis or unary operator one token is skipped (false: (a - -b) means -b, ((a) is accepted, (a) refused); the equivalence with the grammar is proved for tokens without them."
  },
  {
   "property": "C76",
   "status": "partial",
   "theorems": [
    "Cnd.C76_files",
    "Cnd.C76_one_file",
    "Cnd.C76_attach",
    "Cnd.C76_ends",
    "Cnd.C76_opened",
    "Cnd.C76_long",
    "Cnd.C76_one",
    "Cnd.C76_single",
    "Cnd.C76_editor_ends",
    "Cnd.C76_editor_one",
    "Cnd.C76_false_doc",
    "Cnd.C76_false_editor"
   ],
   "note": "Proved for files in which no documentation comment follows a decorator or an import; false for those (C76_false_doc) and for the language server with cyclic imports (C76_false_editor). Termination and one outcome for all files, compiler and language server."
  },
  {
   "property": "C77",
   "status": "partial",
   "theorems": [
    "Cnd.C77_record",
    "Cnd.C77_image",
    "Cnd.C77_text",
    "Cnd.C77_heap",
    "Cnd.C77_safe",
    "Cnd.C77_errors",
    "Cnd.C77_refusal",
    "Cnd.C77_false_nul",
    "Cnd.C77_false_terminated",
    "Cnd.C77_false_wide",
    "Cnd.C77_false_long"
   ],
   "note": "records, strings, memory and errors proved for slices and strings shorter than 2^31 bytes and callbacks that use the accessors of their opcode; witnesses where it fails"
  },
  {
   "property": "C78",
   "status": "proved",
   "theorems": [
    "Cnd.C78_calls",
    "Cnd.C78_terminated_false"
   ],
   "note": "all programs, packets, hosts and lengths of run"
  },
  {
   "property": "C79",
   "status": "partial",
   "theorems": [
    "Cnd.C79_encode",
    "Cnd.C79_decode",
    "Cnd.C79_source_partial",
    "Cnd.C79_converse_false"
   ],
   "note": "encoding and decoding proved for all descriptions of Sch; for source text as C62; padding and filling are not looked at when decoding (C79_converse_false)"
  },
  {
   "property": "C80",
   "status": "proved",
   "theorems": [
    "Cnd.C80_shape",
    "Cnd.C80_strict",
    "Cnd.C80_strict_any"
   ],
   "note": "the code before dead-string elimination; the deviations (bool bit fields over 1, huge enums, inlined switches) are constructors of Blk marked q; excluded by the token check Nice in the strict theorems"
  },
  {
   "property": "C81",
   "status": "proved",
   "theorems": [
    "Cnd.C81_errors",
    "Cnd.C81_optional_passed",
    "Cnd.C81_bulk_passed"
   ],
   "note": "all programs, packets, hosts, modes; refusals of strings asked for (may be optional) and of raw bytes (may be a bulk offer) do not count"
  },
  {
   "property": "C82",
   "status": "partial",
   "theorems": [
    "Cnd.C82_static",
    "Cnd.C82_apart",
    "Cnd.C82_skips",
    "Cnd.C82_run_partial",
    "Cnd.C82_ends_partial",
    "Cnd.C82_source_partial",
    "Cnd.C82_false_width",
    "Cnd.C82_flag_order"
   ],
   "note": "places, jumps and bytes for all code of the shape of C80; runs, termination and images under the stated conditions"
  },
  {
   "property": "C83",
   "status": "partial",
   "theorems": [
    "Cnd.C83_scale_partial",
    "Cnd.C83_scale_binary_partial",
    "Cnd.C83_scale_near_partial",
    "Cnd.C83_poly_reads_partial",
    "Cnd.C83_linear_partial",
    "Cnd.C83_spline_partial",
    "Cnd.C83_false_scale",
    "Cnd.C83_false_square",
    "Cnd.C83_false_small",
    "Cnd.C83_false_below",
    "Cnd.C83_false_outside",
    "Cnd.C83_false_under"
   ],
   "note": "False when values are rounded, for polynomials whose inverse Newton's method does not find, and outside the points of a spline (C83_false_*, compiled from source text and run with IEEE doubles). Proved where nothing is rounded: scalings, decoding of all polynomials, encoding of those of first degree, splines between their points. With rounding: a number under any scaling comes back as itself or its neighbour towards 0 (C83_scale_near_partial)."
  },
  {
   "property": "C84",
   "status": "partial",
   "theorems": [
    "Cnd.C84_packet_partial",
    "Cnd.C84_source_partial",
    "Cnd.progEnd_code",
    "Cnd.C84_false_spare_room",
    "Cnd.C84_false_json",
    "Cnd.C84_false_inside",
    "Cnd.C84_false_endless"
   ],
   "note": "Round trip for read-to-end arrays at the end of a packet, from descriptions and from source text. False for longer buffers, JSON, inside arrays and for elements without bytes (witnesses)."
  },
  {
   "property": "C85",
   "status": "partial",
   "theorems": [
    "Cnd.C85_same_partial",
    "Cnd.C85_packet_partial",
    "Cnd.C85_digits",
    "Cnd.C85_false_bytes",
    "Cnd.C85_false_structs",
    "Cnd.C85_false_limits"
   ],
   "note": "Proved for programs without arrays of single bytes in which no array is mistaken for one (decidable). False otherwise: byte arrays vanish together with the fields behind them, arrays of structs and range-limited bytes are shown as digits by accident (witnesses from compiled source text)."
  },
  {
   "property": "C86",
   "status": "partial",
   "theorems": [
    "Cnd.C86_tables_partial",
    "Cnd.C86_files_partial",
    "Cnd.C86_names_partial",
    "Cnd.C86_false_first",
    "Cnd.C86_false_lines",
    "Cnd.C86_false_names",
    "Cnd.C86_false_many"
   ],
   "note": "Proved for all headers of the usual form whose enumerations give their first member a value; names for words in capital letters. False otherwise (witnesses). Byte orders are missing from the Python and TypeScript files."
  },
  {
   "property": "C87",
   "status": "partial",
   "theorems": [
    "Cnd.C87_tokens",
    "Cnd.C87_context_partial",
    "Cnd.C87_context_program",
    "Cnd.C87_inside",
    "Cnd.C87_outside",
    "Cnd.C87_decorator",
    "Cnd.C87_members",
    "Cnd.C87_fields_partial",
    "Cnd.C87_others",
    "Cnd.C87_false_packet",
    "Cnd.C87_false_nested"
   ],
   "note": "The tokens before the cursor are given by a separate relation (every text has them); the groups the cursor is in by a definition on token lists. In full for the beginnings of programs of the grammar (whatever follows the cursor) and for all texts in which named groups do not nest; offered fields for structs whose code C74 covers. False within packets (no fields at all) and for nested decorators."
  },
  {
   "property": "C88",
   "status": "partial",
   "theorems": [
    "Cnd.C88_agrees",
    "Cnd.C88_places_partial",
    "Cnd.publish_spec",
    "Cnd.DiagDemo.C88_false_lines",
    "Cnd.DiagDemo.C88_behind"
   ],
   "note": "Nothing is reported exactly if the compiler accepts; positions are those of tokens, in order, of the first 1024 messages. False behind strings with newlines and lone carriage returns (witness); messages are often given one token behind the wrong one (witness)."
  },
  {
   "property": "C89",
   "status": "proved",
   "theorems": [
    "Cnd.C89_tokens",
    "Cnd.C89_compile",
    "Cnd.C89_files",
    "Cnd.C89_plain",
    "Cnd.FmtDemo.C89_open_false",
    "Cnd.FmtDemo.C89_blocks_false"
   ],
   "note": "For texts that do not end inside a string, with block comments free of quotation marks and double slashes, formatting keeps the tokens, hence the image, also of projects of several files. Witnesses show that open strings and quotation marks in block comments do change tokens."
  },
  {
   "property": "C90",
   "status": "proved",
   "theorems": [
    "Cnd.C90_settles",
    "Cnd.C90_layout",
    "Cnd.plain_closed",
    "Cnd.FmtDemo.C90_twice",
    "Cnd.FmtDemo.C90_open_false"
   ],
   "note": "For all texts that do not end inside a string: the third output is the second; line ends and indentation of the output. C90_twice and C90_open_false show that once is not enough and that the hypothesis is needed."
  },
  {
   "property": "C91",
   "status": "proved",
   "theorems": [
    "Cnd.C91_checked",
    "Cnd.C91_burst",
    "Cnd.C91_field",
    "Cnd.C91_one_byte",
    "Cnd.C91_variable_false"
   ],
   "note": "Every accepting run over a description of fixed layout stands at the same place behind it; the checksum found there is that of the bytes before, so damage within a window, or of one byte, is refused."
  },
  {
   "property": "C92",
   "status": "partial",
   "theorems": [
    "Cnd.C92_linear_partial",
    "Cnd.C92_handled_partial",
    "Cnd.C92_source_partial",
    "Cnd.C92_false_bits"
   ],
   "note": "For descriptions whose array elements each take a byte; instructions are counted. False without that: C92_false_bits."
  },
  {
   "property": "C93",
   "status": "partial",
   "theorems": [
    "Cnd.C93_longer",
    "Cnd.C93_encode_partial",
    "Cnd.C93_decode_partial",
    "Cnd.C93_fits_partial",
    "Cnd.C93_whole_partial",
    "Cnd.C93_errors_partial",
    "Cnd.C93_json_partial",
    "Cnd.C93_json_decode_partial",
    "Cnd.C93_false_bits",
    "Cnd.C93_false_optional"
   ],
   "note": "full claim for descriptions without bit fields, padding, optional fields and read-to-end arrays (for the tools also without constants and arrays of single bytes); false with bit fields and optional fields, witnesses given"
  },
  {
   "property": "C94",
   "status": "partial",
   "theorems": [
    "Cnd.C94_frame",
    "Cnd.C94_failure",
    "Cnd.C94_usage",
    "Cnd.C94_compile",
    "Cnd.C94_fmt",
    "Cnd.C94_encode_partial",
    "Cnd.C94_decode_partial",
    "Cnd.C94_fmt_compile",
    "Cnd.C94_pipeline_partial",
    "Cnd.C94_too_long_partial",
    "Cnd.C94_cut_partial",
    "Cnd.C94_false_encode",
    "Cnd.C94_false_decode"
   ],
   "note": "Success without output is possible when the output file cannot be opened (witnesses); otherwise proved for all command lines and disks. The sequences have the premises of C65 and C93."
  },
  {
   "property": "C95",
   "status": "partial",
   "theorems": [
    "Cnd.C95_known_partial",
    "Cnd.C95_alone",
    "Cnd.C95_symbols",
    "Cnd.C95_symbols_partial",
    "Cnd.C95_definition_partial",
    "Cnd.C95_hover_partial",
    "Cnd.C95_hover_enum_partial",
    "Cnd.C95_about",
    "Cnd.C95_details",
    "Cnd.C95_false_packet",
    "Cnd.C95_false_imported",
    "Cnd.C95_false_saved",
    "Cnd.C95_false_field",
    "Cnd.C95_false_builtin",
    "Cnd.C95_false_error"
   ],
   "note": "For documents without errors, files as the parser finds them. Exact outline for documents without imports; with imports, everything the document declares and nothing that it or an imported file does not declare. Packets, the URI of imported symbols, unsaved text, names of fields and decorators: disproved."
  },
  {
   "property": "C96",
   "status": "partial",
   "theorems": [
    "Cnd.C96_dues",
    "Cnd.C96_safe_partial",
    "Cnd.C96_definition_partial",
    "Cnd.C96_hover_partial",
    "Cnd.C96_bytes",
    "Cnd.C96_received",
    "Cnd.C96_false_unknown",
    "Cnd.C96_false_params",
    "Cnd.C96_false_uri",
    "Cnd.C96_false_garbage",
    "Cnd.C96_false_order",
    "Cnd.C96_false_trigger",
    "Cnd.C96_false_imported"
   ],
   "note": "For sessions of the messages of the protocol; requests of other methods are never answered, messages with missing members use null pointers, a text that is not JSON ends the session (witnesses). JSON text, the items of completions and the diagnostics of a text are parameters."
  },
  {
   "property": "C97",
   "status": "proved",
   "theorems": [
    "Cnd.C97_encode",
    "Cnd.C97_decode",
    "Cnd.C97_short",
    "Cnd.C97_load",
    "Cnd.C97_round",
    "Cnd.C97_compiled",
    "Cnd.C97_false_short",
    "Cnd.C97_false_offset",
    "Cnd.C97_false_magic",
    "Cnd.C97_false_schema"
   ],
   "note": "Loaders of the C++ program and the bridge are unsafe on files that are not images (findings 84); the JavaScript behind the bridge is not modelled."
  },
  {
   "property": "C98",
   "status": "proved",
   "theorems": [
    "Cnd.C98_run",
    "Cnd.C98_leak",
    "Cnd.C98_cap",
    "Cnd.C98_table",
    "Cnd.C98_table_total",
    "Cnd.C98_false_alias"
   ],
   "note": "Sizes are natural numbers and allocation does not fail; realloc always moves."
  },
  {
   "property": "C99",
   "status": "proved",
   "theorems": [
    "Cnd.C99_run",
    "Cnd.C99_leak",
    "Cnd.C99_total",
    "Cnd.C99_false_stale",
    "Cnd.C99_parser"
   ],
   "note": "Declarations, values, emitted code, patches, copies of structs and look-ups on the registries in memory: no undefined access, contents are the specification's lists, freeing leaves no block; a pointer kept over an addition to a full registry is stale, and body parsing adds nothing."
  }
 ]
}
