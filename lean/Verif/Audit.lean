/-
  The axioms every claimed theorem depends on.
-/
import Verif.Props.Safety
import Verif.Props.BitFields
import Verif.Props.Scalar
import Verif.Props.Checks
import Verif.Props.Control
import Verif.Props.Strings
import Verif.Props.Crc
import Verif.Props.Keep
import Verif.Props.Packet
import Verif.Props.Arrays
import Verif.Props.Trans
import Verif.Props.TwoRuns
import Verif.Props.Term
import Verif.Props.Image
import Verif.Props.Names
import Verif.Props.Verify
import Verif.Props.VerifyPackets
import Verif.Props.Expr
import Verif.Props.Lexer
import Verif.Props.Precedence
import Verif.Props.Fmt
import Verif.Props.Inspect
import Verif.Props.Inline
import Verif.Props.OptStr
import Verif.Props.ParseTerm
import Verif.Props.LexUnique
import Verif.Props.Source
import Verif.Props.SourceField
import Verif.Props.SourceSwitch
import Verif.Props.SourceStmt
import Verif.Props.SourceTop
import Verif.Props.SourceMain
import Verif.Props.SourceFindings
import Verif.Props.Sch
import Verif.Props.SrcSch
import Verif.Props.OptSch
import Verif.Props.SrcKeys
import Verif.Props.EndToEnd
import Verif.Props.Json
import Verif.Props.JsonExist
import Verif.Props.JsonFind
import Verif.Props.Tools
import Verif.Props.Total
import Verif.Props.Prefix
import Verif.Props.Accept
import Verif.Props.Lsp
import Verif.Props.LspCursor
import Verif.Props.ExprExact
import Verif.Props.Import
import Verif.Props.ImportTerm
import Verif.Props.GoBind
import Verif.Props.Calls
import Verif.Props.WireFormat
import Verif.Props.CodeShape
import Verif.Props.CodeStmt
import Verif.Props.CodeSwitch
import Verif.Props.CodeTop
import Verif.Props.CallErr
import Verif.Props.CodeFlow
import Verif.Props.Curves
import Verif.Props.CurveFind
import Verif.Props.CurveNear
import Verif.Props.ReadToEnd
import Verif.Props.JsonHex
import Verif.Props.Bindings
import Verif.Props.BindText
import Verif.Props.BindNames
import Verif.Props.LspContext
import Verif.Props.LspPrograms
import Verif.Props.LspDiag
import Verif.Props.FmtTokens
import Verif.Props.FmtSettle
import Verif.Props.Corrupt
import Verif.Props.Linear
import Verif.Props.Fits
import Verif.Props.Cli
import Verif.Props.LspSymbols
import Verif.Props.LspKnown
import Verif.Props.Outline
import Verif.Props.LspSession
import Verif.Props.Demos
import Verif.Props.Memory
import Verif.Props.Registry
import Verif.Props.NoUb
import Verif.Props.NoUbShort
import Verif.Props.NoUbFiles
import Verif.Props.Fuzz
import Verif.Props.FuzzSource
import Verif.Props.Nob
import Verif.Props.Sink
import Verif.Props.EmitKey
import Verif.Props.SinkSchema
import Verif.Props.ExampleSchemas

#print axioms Cnd.C01_scalar_roundtrip
#print axioms Cnd.C02_wire_layout
#print axioms Cnd.C03_step_frame
#print axioms Cnd.C03_run_frame
#print axioms Cnd.C04_false
#print axioms Cnd.C04_decode_readonly_partial
#print axioms Cnd.C05_false_enum
#print axioms Cnd.C05_false_emit
#print axioms Cnd.C05_encode_in_bounds_partial
#print axioms Cnd.C06_false_pad_crc
#print axioms Cnd.C06_false_pad_str
#print axioms Cnd.C06_false_optional_enum
#print axioms Cnd.C06_decode_in_bounds_partial
#print axioms Cnd.C06_no_hazard_opcodes
#print axioms Cnd.C07_stacks_bounded
#print axioms Cnd.C07_push_full
#print axioms Cnd.C07_loop_full
#print axioms Cnd.C08_forward
#print axioms Cnd.C09_bits_roundtrip
#print axioms Cnd.C10_bits_frame
#print axioms Cnd.C10_bits_layout
#print axioms Cnd.C100_no_ub_partial
#print axioms Cnd.C100_simple_partial
#print axioms Cnd.C100_files_partial
#print axioms Cnd.C100_editor_partial
#print axioms Cnd.C100_false
#print axioms Cnd.C100_short
#print axioms Cnd.C100_digits
#print axioms Cnd.C101_generator
#print axioms Cnd.C101_packets
#print axioms Cnd.C101_counters
#print axioms Cnd.C101_report_partial
#print axioms Cnd.C101_ends_partial
#print axioms Cnd.C101_handled
#print axioms Cnd.C101_source_partial
#print axioms Cnd.C101_false_report
#print axioms Cnd.C101_false_hang
#print axioms Cnd.C102_dump_partial
#print axioms Cnd.C102_lines
#print axioms Cnd.C102_false_long
#print axioms Cnd.C103_compile_partial
#print axioms Cnd.C103_encode_partial
#print axioms Cnd.C103_false_untouched
#print axioms Cnd.C103_false_compile
#print axioms Cnd.C103_false_encode
#print axioms Cnd.C103_false_decode
#print axioms Cnd.C104_arrays_partial
#print axioms Cnd.C104_safe
#print axioms Cnd.C104_false_strings
#print axioms Cnd.C104_false_bytes
#print axioms Cnd.C104_false_reason
#print axioms Cnd.C11_write_fast_path
#print axioms Cnd.C11_read_fast_path
#print axioms Cnd.C12_sign_extend
#print axioms Cnd.C12_signed_roundtrip
#print axioms Cnd.C13_false_encode
#print axioms Cnd.C13_false_decode
#print axioms Cnd.C13_truncation_partial
#print axioms Cnd.C14_str_encode
#print axioms Cnd.C14_str_decode
#print axioms Cnd.C14_str_roundtrip
#print axioms Cnd.C15_str_encode
#print axioms Cnd.C15_str_decode
#print axioms Cnd.C15_str_roundtrip
#print axioms Cnd.C16_array
#print axioms Cnd.reps_scalar
#print axioms Cnd.C17_bulk_encode_partial
#print axioms Cnd.C17_bulk_decode_partial
#print axioms Cnd.C17_false_transform
#print axioms Cnd.C18_empty_fixed_partial
#print axioms Cnd.C18_empty_prefixed_partial
#print axioms Cnd.C18_empty_dynamic_partial
#print axioms Cnd.nested_code
#print axioms Cnd.C18_false_key
#print axioms Cnd.C19_const_encode
#print axioms Cnd.C19_const_decode
#print axioms Cnd.C19_const_no_room
#print axioms Cnd.C20_range_check
#print axioms Cnd.C21_enum_check
#print axioms Cnd.C22_bool_decode
#print axioms Cnd.C22_bool_encode
#print axioms Cnd.C23_crc_encode
#print axioms Cnd.C23_crc_decode
#print axioms Cnd.C23_crc_roundtrip
#print axioms Cnd.C24_one_byte
#print axioms Cnd.C24_corruption_rejected
#print axioms Cnd.C25_false
#print axioms Cnd.C25_table_partial
#print axioms Cnd.C26_int_round_trip
#print axioms Cnd.C26_consumed_partial
#print axioms Cnd.C26_false_leak
#print axioms Cnd.C27_false
#print axioms Cnd.C27_encode_iff_partial
#print axioms Cnd.C27_decode_iff_partial
#print axioms Cnd.C27_decode_small_partial
#print axioms Cnd.C28_mark
#print axioms Cnd.C28_missing
#print axioms Cnd.C28_mandatory
#print axioms Cnd.C28_present
#print axioms Cnd.C28_false_mark_leaks
#print axioms Cnd.C28_mark_scoped_partial
#print axioms Cnd.C29_switch
#print axioms Cnd.C29_switch_callback
#print axioms Cnd.C30_jump_table
#print axioms Cnd.C30_table_eq_switch
#print axioms Cnd.C30_compiled_table
#print axioms Cnd.C31_false_switch_table
#print axioms Cnd.C31_jump_target
#print axioms Cnd.C31_code_in_bounds_partial
#print axioms Cnd.C31_truncated_table
#print axioms Cnd.C31_truncated_switch
#print axioms Cnd.C32_ends_partial
#print axioms Cnd.C32_program_partial
#print axioms Cnd.C32_false
#print axioms Cnd.C33_history
#print axioms Cnd.C34_packet_partial
#print axioms Cnd.C34_false
#print axioms Cnd.C35_round_trip_partial
#print axioms Cnd.C35_false
#print axioms Cnd.C45_image
#print axioms Cnd.C36_accepts
#print axioms Cnd.C36_refuses
#print axioms Cnd.C36_suffix
#print axioms Cnd.C37_false
#print axioms Cnd.C37_name_partial
#print axioms Cnd.C37_lookup_partial
#print axioms Cnd.C37_compiled
#print axioms Cnd.C38_verifier_total
#print axioms Cnd.C38_limit
#print axioms Cnd.C39_partial
#print axioms Cnd.C39_packets_partial
#print axioms Cnd.C39_targets
#print axioms Cnd.C39_false
#print axioms Cnd.C39_false_length
#print axioms Cnd.C39_false_operands
#print axioms Cnd.C39_false_table
#print axioms Cnd.C40_partial
#print axioms Cnd.C40_false
#print axioms Cnd.C40_false_enum
#print axioms Cnd.C41_eval_partial
#print axioms Cnd.C41_too_deep
#print axioms Cnd.C41_false_neg
#print axioms Cnd.C41_false_shift
#print axioms Cnd.C42_precedence_partial
#print axioms Cnd.C42_unique
#print axioms Cnd.C42_value_partial
#print axioms Cnd.C42_paren_false
#print axioms Cnd.C42_unary_false
#print axioms Cnd.C42_hex_false
#print axioms Cnd.C42_minus_false
#print axioms Cnd.C42_doc_false
#print axioms Cnd.C42_false_example
#print axioms Cnd.C43_right_partial
#print axioms Cnd.C43_left_int_actual
#print axioms Cnd.C43_false
#print axioms Cnd.C44_computed_partial
#print axioms Cnd.C44_false
#print axioms Cnd.C45_intern
#print axioms Cnd.C45_ids
#print axioms Cnd.C45_false
#print axioms Cnd.C46_plain
#print axioms Cnd.C46_signed_partial
#print axioms Cnd.C46_u32
#print axioms Cnd.C46_false
#print axioms Cnd.C46_false_u32
#print axioms Cnd.Numeral.exists_dec
#print axioms Cnd.C47_length
#print axioms Cnd.C47_inline_partial
#print axioms Cnd.C47_false_table
#print axioms Cnd.C47_false_names
#print axioms Cnd.C47_false_ref
#print axioms Cnd.C47_false_version
#print axioms Cnd.C48_optimize_partial
#print axioms Cnd.C48_all_used
#print axioms Cnd.C48_false_constant
#print axioms Cnd.C48_false_name
#print axioms Cnd.C48_false_table
#print axioms Cnd.C48_false_poly
#print axioms Cnd.C48_false_emit
#print axioms Cnd.C49_lexer
#print axioms Cnd.C49_unique
#print axioms Cnd.C49_iff
#print axioms Cnd.C49_call
#print axioms Cnd.C49_line_false
#print axioms Cnd.C50_formatter
#print axioms Cnd.C50_idempotent_false
#print axioms Cnd.C50_strings_false
#print axioms Cnd.C51_emit
#print axioms Cnd.C51_if_else
#print axioms Cnd.C51_statement
#print axioms Cnd.C52_packet
#print axioms Cnd.encodes
#print axioms Cnd.rec_fwd
#print axioms Cnd.C53_error_reasons
#print axioms Cnd.C53_underflow
#print axioms Cnd.C53_overflow
#print axioms Cnd.C54_boundaries_partial
#print axioms Cnd.C54_false_eof
#print axioms Cnd.C54_false_table
#print axioms Cnd.C54_past_end
#print axioms Cnd.C55_burst
#print axioms Cnd.C56_textbook
#print axioms Cnd.C56_textbook_partial
#print axioms Cnd.C56_encode_partial
#print axioms Cnd.C57_false
#print axioms Cnd.C57_step_keeps_partial
#print axioms Cnd.C57_bytes_final
#print axioms Cnd.C57_bits_final_partial
#print axioms Cnd.C58_ends
#print axioms Cnd.C58_one
#print axioms Cnd.C59_tokens
#print axioms Cnd.C59_source
#print axioms Cnd.C59_written
#print axioms Cnd.C60_range_partial
#print axioms Cnd.C60_false_range
#print axioms Cnd.C60_false_enum
#print axioms Cnd.C60_false_bits
#print axioms Cnd.C60_false_until
#print axioms Cnd.C60_false_max
#print axioms Cnd.C60_false_width
#print axioms Cnd.C60_false_crc
#print axioms Cnd.C60_false_be
#print axioms Cnd.C60_false_le
#print axioms Cnd.C60_false_reset
#print axioms Cnd.C60_false_array
#print axioms Cnd.C60_false_bool
#print axioms Cnd.C61_packet
#print axioms Cnd.C61_float_poly_false
#print axioms Cnd.C62_program_partial
#print axioms Cnd.C62_all_met_partial
#print axioms Cnd.C62_false_constant
#print axioms Cnd.optSch_code
#print axioms Cnd.optSch_names
#print axioms Cnd.C62_false_key
#print axioms Cnd.C62_false_example
#print axioms Cnd.C63_record_partial
#print axioms Cnd.C63_document
#print axioms Cnd.C63_packet_partial
#print axioms Cnd.C63_constants_partial
#print axioms Cnd.C63_decode
#print axioms Cnd.C63_encode
#print axioms Cnd.C63_numbers
#print axioms Cnd.C63_saturates
#print axioms Cnd.C63_u32_witness
#print axioms Cnd.C63_u64_witness
#print axioms Cnd.C63_bytes_decode_witness
#print axioms Cnd.C63_bytes_encode_witness
#print axioms Cnd.C63_empty_witness
#print axioms Cnd.C63_prefix_witness
#print axioms Cnd.C63_string_witness
#print axioms Cnd.C63_nesting_witness
#print axioms Cnd.C63_case_witness
#print axioms Cnd.C63_member_witness
#print axioms Cnd.C63_constant_witness
#print axioms Cnd.C64_written
#print axioms Cnd.C64_agree
#print axioms Cnd.C64_defined_partial
#print axioms Cnd.C64_false
#print axioms Cnd.C64_go
#print axioms Cnd.C65_tools_partial
#print axioms Cnd.C66_every_input_partial
#print axioms Cnd.C66_source_partial
#print axioms Cnd.C66_false_endless
#print axioms Cnd.C66_false_optional_enum
#print axioms Cnd.C66_false_add
#print axioms Cnd.C66_false_shift
#print axioms Cnd.C66_false_pad
#print axioms Cnd.C66_false_short
#print axioms Cnd.C67_prefix_free
#print axioms Cnd.C67_stream
#print axioms Cnd.C68_accepted_partial
#print axioms Cnd.C68_resend_partial
#print axioms Cnd.C68_false_string
#print axioms Cnd.C68_false_count
#print axioms Cnd.C68_false_optional
#print axioms Cnd.C69_message
#print axioms Cnd.C69_stream
#print axioms Cnd.C69_sent
#print axioms Cnd.C69_safe_partial
#print axioms Cnd.C69_false_length
#print axioms Cnd.C70_decode
#print axioms Cnd.C70_drive
#print axioms Cnd.C70_bounds
#print axioms Cnd.C70_definition_partial
#print axioms Cnd.C70_definition_drive_partial
#print axioms Cnd.C70_false_percent
#print axioms Cnd.C70_false_ctype
#print axioms Cnd.C71_store_partial
#print axioms Cnd.C71_false_close
#print axioms Cnd.C71_format_partial
#print axioms Cnd.C71_format_answers
#print axioms Cnd.C71_false_unsaved
#print axioms Cnd.C71_false_long
#print axioms Cnd.C72_hover
#print axioms Cnd.C72_false_long
#print axioms Cnd.C73_symbol_partial
#print axioms Cnd.C73_false_string
#print axioms Cnd.C73_false_start
#print axioms Cnd.C74_offered_partial
#print axioms Cnd.C74_false_eof
#print axioms Cnd.C74_false_kinds
#print axioms Cnd.C74_false_once
#print axioms Cnd.C75_language
#print axioms Cnd.C75_accepts_partial
#print axioms Cnd.C75_refuses
#print axioms Cnd.C75_false_paren
#print axioms Cnd.C75_false_open
#print axioms Cnd.C76_files
#print axioms Cnd.C76_one_file
#print axioms Cnd.C76_attach
#print axioms Cnd.C76_ends
#print axioms Cnd.C76_opened
#print axioms Cnd.C76_long
#print axioms Cnd.C76_one
#print axioms Cnd.C76_single
#print axioms Cnd.C76_editor_ends
#print axioms Cnd.C76_editor_one
#print axioms Cnd.C76_false_doc
#print axioms Cnd.C76_false_editor
#print axioms Cnd.C77_record
#print axioms Cnd.C77_image
#print axioms Cnd.C77_text
#print axioms Cnd.C77_heap
#print axioms Cnd.C77_safe
#print axioms Cnd.C77_errors
#print axioms Cnd.C77_refusal
#print axioms Cnd.C77_false_nul
#print axioms Cnd.C77_false_terminated
#print axioms Cnd.C77_false_wide
#print axioms Cnd.C77_false_long
#print axioms Cnd.C78_calls
#print axioms Cnd.C78_terminated_false
#print axioms Cnd.C79_encode
#print axioms Cnd.C79_decode
#print axioms Cnd.C79_source_partial
#print axioms Cnd.C79_converse_false
#print axioms Cnd.C80_shape
#print axioms Cnd.C80_strict
#print axioms Cnd.C80_strict_any
#print axioms Cnd.C81_errors
#print axioms Cnd.C81_optional_passed
#print axioms Cnd.C81_bulk_passed
#print axioms Cnd.C82_static
#print axioms Cnd.C82_apart
#print axioms Cnd.C82_skips
#print axioms Cnd.C82_run_partial
#print axioms Cnd.C82_ends_partial
#print axioms Cnd.C82_source_partial
#print axioms Cnd.C82_false_width
#print axioms Cnd.C82_flag_order
#print axioms Cnd.C83_scale_partial
#print axioms Cnd.C83_scale_binary_partial
#print axioms Cnd.C83_scale_near_partial
#print axioms Cnd.C83_poly_reads_partial
#print axioms Cnd.C83_linear_partial
#print axioms Cnd.C83_spline_partial
#print axioms Cnd.C83_false_scale
#print axioms Cnd.C83_false_square
#print axioms Cnd.C83_false_small
#print axioms Cnd.C83_false_below
#print axioms Cnd.C83_false_outside
#print axioms Cnd.C83_false_under
#print axioms Cnd.C84_packet_partial
#print axioms Cnd.C84_source_partial
#print axioms Cnd.progEnd_code
#print axioms Cnd.C84_false_spare_room
#print axioms Cnd.C84_false_json
#print axioms Cnd.C84_false_inside
#print axioms Cnd.C84_false_endless
#print axioms Cnd.C85_same_partial
#print axioms Cnd.C85_packet_partial
#print axioms Cnd.C85_digits
#print axioms Cnd.C85_false_bytes
#print axioms Cnd.C85_false_structs
#print axioms Cnd.C85_false_limits
#print axioms Cnd.C86_tables_partial
#print axioms Cnd.C86_files_partial
#print axioms Cnd.C86_names_partial
#print axioms Cnd.C86_false_first
#print axioms Cnd.C86_false_lines
#print axioms Cnd.C86_false_names
#print axioms Cnd.C86_false_many
#print axioms Cnd.C87_tokens
#print axioms Cnd.C87_context_partial
#print axioms Cnd.C87_context_program
#print axioms Cnd.C87_inside
#print axioms Cnd.C87_outside
#print axioms Cnd.C87_decorator
#print axioms Cnd.C87_members
#print axioms Cnd.C87_fields_partial
#print axioms Cnd.C87_others
#print axioms Cnd.C87_false_packet
#print axioms Cnd.C87_false_nested
#print axioms Cnd.C88_agrees
#print axioms Cnd.C88_places_partial
#print axioms Cnd.publish_spec
#print axioms Cnd.DiagDemo.C88_false_lines
#print axioms Cnd.DiagDemo.C88_behind
#print axioms Cnd.C89_tokens
#print axioms Cnd.C89_compile
#print axioms Cnd.C89_files
#print axioms Cnd.C89_plain
#print axioms Cnd.FmtDemo.C89_open_false
#print axioms Cnd.FmtDemo.C89_blocks_false
#print axioms Cnd.C90_settles
#print axioms Cnd.C90_layout
#print axioms Cnd.plain_closed
#print axioms Cnd.FmtDemo.C90_twice
#print axioms Cnd.FmtDemo.C90_open_false
#print axioms Cnd.C91_checked
#print axioms Cnd.C91_burst
#print axioms Cnd.C91_field
#print axioms Cnd.C91_one_byte
#print axioms Cnd.C91_variable_false
#print axioms Cnd.C92_linear_partial
#print axioms Cnd.C92_handled_partial
#print axioms Cnd.C92_source_partial
#print axioms Cnd.C92_false_bits
#print axioms Cnd.C93_longer
#print axioms Cnd.C93_encode_partial
#print axioms Cnd.C93_decode_partial
#print axioms Cnd.C93_fits_partial
#print axioms Cnd.C93_whole_partial
#print axioms Cnd.C93_errors_partial
#print axioms Cnd.C93_json_partial
#print axioms Cnd.C93_json_decode_partial
#print axioms Cnd.C93_false_bits
#print axioms Cnd.C93_false_optional
#print axioms Cnd.C94_frame
#print axioms Cnd.C94_failure
#print axioms Cnd.C94_usage
#print axioms Cnd.C94_compile
#print axioms Cnd.C94_fmt
#print axioms Cnd.C94_encode_partial
#print axioms Cnd.C94_decode_partial
#print axioms Cnd.C94_fmt_compile
#print axioms Cnd.C94_pipeline_partial
#print axioms Cnd.C94_too_long_partial
#print axioms Cnd.C94_cut_partial
#print axioms Cnd.C94_false_encode
#print axioms Cnd.C94_false_decode
#print axioms Cnd.C95_known_partial
#print axioms Cnd.C95_alone
#print axioms Cnd.C95_symbols
#print axioms Cnd.C95_symbols_partial
#print axioms Cnd.C95_definition_partial
#print axioms Cnd.C95_hover_partial
#print axioms Cnd.C95_hover_enum_partial
#print axioms Cnd.C95_about
#print axioms Cnd.C95_details
#print axioms Cnd.C95_false_packet
#print axioms Cnd.C95_false_imported
#print axioms Cnd.C95_false_saved
#print axioms Cnd.C95_false_field
#print axioms Cnd.C95_false_builtin
#print axioms Cnd.C95_false_error
#print axioms Cnd.C96_dues
#print axioms Cnd.C96_safe_partial
#print axioms Cnd.C96_definition_partial
#print axioms Cnd.C96_hover_partial
#print axioms Cnd.C96_bytes
#print axioms Cnd.C96_received
#print axioms Cnd.C96_false_unknown
#print axioms Cnd.C96_false_params
#print axioms Cnd.C96_false_uri
#print axioms Cnd.C96_false_garbage
#print axioms Cnd.C96_false_order
#print axioms Cnd.C96_false_trigger
#print axioms Cnd.C96_false_imported
#print axioms Cnd.C97_encode
#print axioms Cnd.C97_decode
#print axioms Cnd.C97_short
#print axioms Cnd.C97_load
#print axioms Cnd.C97_round
#print axioms Cnd.C97_compiled
#print axioms Cnd.C97_false_short
#print axioms Cnd.C97_false_offset
#print axioms Cnd.C97_false_magic
#print axioms Cnd.C97_false_schema
#print axioms Cnd.C98_run
#print axioms Cnd.C98_leak
#print axioms Cnd.C98_cap
#print axioms Cnd.C98_table
#print axioms Cnd.C98_table_total
#print axioms Cnd.C98_false_alias
#print axioms Cnd.C99_run
#print axioms Cnd.C99_leak
#print axioms Cnd.C99_total
#print axioms Cnd.C99_false_stale
#print axioms Cnd.C99_parser
